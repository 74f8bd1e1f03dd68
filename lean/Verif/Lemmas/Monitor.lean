import Verif.Lemmas.ShmExact
import Verif.Model.Monitor

/-! Invariants of the memory manager along the loop of a monitor, and exact conditions for its exceptions. -/
namespace Verif.Monitor
open Verif.Shm Verif.FreeMemory Verif.Spec

/-- Every reservation asks for at least one byte. -/
def Positive (reqs : List (Nat × Req)) : Prop := ∀ src id n, (src, Req.reserve id n) ∈ reqs → 1 ≤ n

/-- The invariants of the memory manager. -/
def Inv (memLen svcLen : Nat) (s : State) : Prop :=
  MInv memLen svcLen s.host.mgr ∧ MExact memLen svcLen s.host.mgr

theorem inv_init (memLen svcLen : Nat) : Inv memLen svcLen (State.init memLen svcLen) :=
  ⟨minv_init memLen svcLen, mexact_init memLen svcLen⟩

theorem inv_serve {memLen svcLen : Nat} {c : Config} {s s' : State} {src : Nat} {q : Req} {out : List (Nat × Msg)}
    (hp : ∀ id n, q = .reserve id n → 1 ≤ n) (hi : Inv memLen svcLen s) (h : s.serve c src q = (.up s', out)) :
    Inv memLen svcLen s' := by
  cases q with
  | taskDone ids => cases h; exact hi
  | wait ids num => cases h; exact hi
  | taskCount => cases h; exact hi
  | reserve id n =>
    simp only [State.serve] at h
    split at h
    · have h1 := minv_reserve (id := id) (hp id n rfl) hi.1
      split at h
      · rename_i r first m hr
        cases h
        rw [hr] at h1
        exact ⟨h1, mexact_reserve (hp id n rfl) hi.1 hi.2 hr⟩
      · cases h
    · cases h
  | fetch o =>
    cases o with
    | none => cases h
    | some id =>
      simp only [State.serve] at h
      split at h
      · split at h
        · cases h; exact hi
        · cases h
      · cases h
  | cleanup l refs =>
    simp only [State.serve] at h
    split at h
    · split at h
      · rename_i h' hc
        cases h
        exact ⟨minv_clear hi.1 hc, mexact_clearLoop _ (h := { s.host with mgr := { s.host.mgr with pending := [] } })
          ⟨hi.1.mem, hi.1.svc, hi.1.alig, hi.1.slot⟩ ⟨hi.2.mem, hi.2.svc⟩ hc⟩
      · cases h
    · cases h; exact hi
  | ready =>
    simp only [State.serve] at h
    split at h
    · cases h
    · cases h; exact hi
  | shutdown => cases h
  | other => cases h
  | poke i v => cases h; exact hi

theorem run_not_up (c : Config) {p : Phase} (hp : ∀ s, p ≠ .up s) : ∀ reqs, p.run c reqs = (p, [])
  | [] => rfl
  | q :: qs => by
    cases p with
    | up s => exact absurd rfl (hp s)
    | left => simp [Phase.run, Phase.step, run_not_up c (p := .left) (by simp) qs]
    | raised f => simp [Phase.run, Phase.step, run_not_up c (p := .raised f) (by simp) qs]

theorem inv_run {memLen svcLen : Nat} {c : Config} : ∀ (reqs : List (Nat × Req)) {s s' : State}, Positive reqs →
    Inv memLen svcLen s → ((Phase.up s).run c reqs).1 = .up s' → Inv memLen svcLen s'
  | [], s, s', _, hi, h => by cases h; exact hi
  | q :: qs, s, s', hp, hi, h => by
    simp only [Phase.run, Phase.step] at h
    generalize hr : s.serve c q.1 q.2 = r at h
    obtain ⟨p, out⟩ := r
    cases p with
    | up s1 =>
      exact inv_run qs (fun a id n hm => hp a id n (by simp [hm]))
        (inv_serve (fun id n he => hp q.1 id n (by simp [← he])) hi hr) h
    | left => rw [run_not_up c (by simp)] at h; cases h
    | raised f => rw [run_not_up c (by simp)] at h; cases h

/-- There are `n` units in a row below `len` that no reservation covers. -/
def Room (get : DataId → Option Resv) (lo hi : Resv → Nat) (len n : Nat) : Prop :=
  ∃ a, a + n ≤ len ∧ ∀ j r, get j = some r → a + n ≤ lo r ∨ hi r ≤ a

theorem occupy_isSome_iff {len n : Nat} {r : Ranges} {get : DataId → Option Resv} {lo hi : Resv → Nat} (hn : 1 ≤ n)
    (h : AInv len r (fun id => (get id).map fun x => (lo x, hi x)))
    (e : Exact len r (fun id => (get id).map fun x => (lo x, hi x))) :
    (occupy r n).1.isSome = true ↔ Room get lo hi len n := by
  constructor
  · intro hs
    generalize ho : occupy r n = o at hs
    obtain ⟨o1, o2⟩ := o
    cases o1 with
    | none => simp at hs
    | some p =>
      obtain ⟨a, b⟩ := p
      rcases h.good with hc | ⟨-, rfl⟩
      · obtain ⟨rfl, h1, -⟩ := occupy_some hn hc ho
        refine ⟨a, ?_, ?_⟩
        · have := (h.cov (a + n - 1) (h1 _ (by omega) (by omega))).1
          omega
        · intro j x hj
          have hl : (fun id => (get id).map fun x => (lo x, hi x)) j = some (lo x, hi x) := by simp [hj]
          have hw := h.within j _ hl
          simp only [InSegment] at hw
          apply Classical.byContradiction
          intro hno
          rw [not_or, Nat.not_le, Nat.not_le] at hno
          rcases Nat.le_total a (lo x) with hle | hle
          · exact (h.cov (lo x) (h1 _ hle hno.1)).2 j _ hl ⟨Nat.le_refl _, hw.1⟩
          · exact (h.cov a (h1 _ (Nat.le_refl _) (by omega))).2 j _ hl ⟨hle, hno.2⟩
      · rw [occupy_degenerate hn] at ho; simp at ho
  · rintro ⟨a, ha, hg⟩
    obtain ⟨f, l, r', ho⟩ := occupy_of_gap hn h e ha (by
      intro id p x hp h1 h2
      simp only [Option.map_eq_some_iff] at hp
      obtain ⟨y, hy, rfl⟩ := hp
      have := hg id y hy
      simp only
      omega)
    rw [ho]; rfl

/-- When a reservation is refused, and with which exception. -/
theorem reserve_error_iff {memLen svcLen n : Nat} {m : Mgr} {id : DataId} (hn : 1 ≤ n) (hi : MInv memLen svcLen m)
    (he : MExact memLen svcLen m) (f : Err) :
    (∃ m', m.reserve id n = (.error f, m')) ↔
      m.get id = none ∧
        ((f = .overflowMemory ∧ ¬ Room m.get (·.first) (·.last) memLen n) ∨
         (f = .overflowService ∧ Room m.get (·.first) (·.last) memLen n ∧
            ¬ Room m.get (·.svc) (fun r => r.svc + 4) svcLen 4)) := by
  have h1 := occupy_isSome_iff (get := m.get) (lo := (·.first)) (hi := (·.last)) hn hi.mem he.mem
  have h2 := occupy_isSome_iff (get := m.get) (lo := (·.svc)) (hi := fun r => r.svc + 4) (n := infoSize) (by decide)
    hi.svc he.svc
  simp only [show infoSize = 4 from rfl] at h2
  rw [← h1, ← h2]
  unfold Mgr.reserve Mgr.put
  simp only [show infoSize = 4 from rfl]
  generalize occupy m.mem n = o
  generalize occupy m.svc 4 = q
  obtain ⟨o1, o2⟩ := o
  obtain ⟨q1, q2⟩ := q
  cases hg : m.get id with
  | some r => simp
  | none =>
    cases o1 with
    | none => cases f <;> simp
    | some p =>
      cases q1 with
      | none => cases f <;> simp
      | some t => cases f <;> simp

/-- The slot of a reservation holds the identity of the object. -/
def Carries (h : Host) (id : DataId) (r : Resv) : Prop := h.words r.svc = id.rank ∧ h.words (r.svc + 1) = id.num

theorem checkInfo_iff (h : Host) (id : DataId) (r : Resv) : checkInfo h.words id r.svc = true ↔ Carries h id r := by
  simp [checkInfo, Carries]

theorem clearOne_error_iff {h : Host} {id : DataId} {n : Nat} {f : Err} :
    h.clearOne id n = .error f ↔ f = .unexpectedDataId ∧ n = 0 ∧ ∃ r, h.mgr.get id = some r ∧ ¬ Carries h id r := by
  unfold Host.clearOne Mgr.get
  by_cases hn : n = 0
  · rw [if_pos hn]
    cases hr : h.mgr.resv id with
    | none => simp
    | some r =>
      simp only [deleteInfo]
      by_cases hc : checkInfo h.words id r.svc = true
      · rw [if_pos hc]
        simp [(checkInfo_iff h id r).1 hc]
      · rw [if_neg hc]
        rw [checkInfo_iff] at hc
        simp [hc, hn, eq_comm]
  · rw [if_neg hn]; simp [hn]

theorem clearLoop_error_iff {memLen svcLen : Nat} : ∀ (l : List (DataId × Nat)) {h : Host} {f : Err},
    MInv memLen svcLen h.mgr → (h.clearLoop l = .error f ↔
      f = .unexpectedDataId ∧ ∃ id r, (id, 0) ∈ l ∧ h.mgr.get id = some r ∧ ¬ Carries h id r)
  | [], h, f, _ => by simp [Host.clearLoop]
  | (id, n) :: t, h, f, hi => by
    simp only [Host.clearLoop]
    cases h1e : h.clearOne id n with
    | error e =>
      obtain ⟨rfl, rfl, r, hr, hc⟩ := clearOne_error_iff.1 h1e
      simp only [Except.error.injEq]
      constructor
      · rintro rfl; exact ⟨rfl, id, r, by simp, hr, hc⟩
      · rintro ⟨rfl, -⟩; rfl
    | ok h1 =>
      simp only
      rw [clearLoop_error_iff t (minv_clearOne hi h1e)]
      have hno : ¬ ∃ f, h.clearOne id n = .error f := by rintro ⟨f, hf⟩; rw [hf] at h1e; cases h1e
      have hsame : ∀ x r, h1.mgr.get x = some r → (h.mgr.get x = some r ∧ (Carries h1 x r ↔ Carries h x r)) := by
        intro x r hx
        have hx0 : h.mgr.get x = some r := by
          rcases clearOne_keeps (x := x) h1e with e | e
          · simp only [Mgr.get] at hx; rw [e] at hx; cases hx
          · simp only [Mgr.get] at hx ⊢; rw [← e]; exact hx
        refine ⟨hx0, ?_⟩
        rcases (clearOne_freed (x := x) h1e).2 with e | ⟨r', c1, c2, c3⟩
        · simp only [Carries, e]
        · have hne : x ≠ id := by rintro rfl; simp only [Mgr.get] at hx; rw [c2] at hx; cases hx
          have hd := hi.svc.disj x id _ _ hne (show svcLive h.mgr x = some (r.svc, r.svc + infoSize) by
            simp only [Mgr.get] at hx0; simp [svcLive, hx0])
            (show svcLive h.mgr id = some (r'.svc, r'.svc + infoSize) by simp [svcLive, c1])
          have d1 := hd r.svc
          have d2 := hd (r.svc + 1)
          simp only [infoSize] at d1 d2
          simp only [Carries, c3 r.svc (by omega), c3 (r.svc + 1) (by omega)]
      constructor
      · rintro ⟨rfl, x, r, hm, hx, hc⟩
        obtain ⟨hx0, hiff⟩ := hsame x r hx
        exact ⟨rfl, x, r, by simp [hm], hx0, fun k => hc (hiff.2 k)⟩
      · rintro ⟨rfl, x, r, hm, hx, hc⟩
        refine ⟨rfl, ?_⟩
        have hxn : ¬ (x = id ∧ n = 0) := by
          rintro ⟨rfl, rfl⟩
          exact hno ⟨_, clearOne_error_iff.2 ⟨rfl, rfl, r, hx, hc⟩⟩
        have hm' : (x, 0) ∈ t := by
          rcases List.mem_cons.1 hm with e | e
          · cases e; exact absurd ⟨rfl, rfl⟩ hxn
          · exact e
        have hx1 : h1.mgr.get x = some r := by
          simp only [Mgr.get] at hx ⊢
          rw [clearOne_resv h1e x, if_neg hxn]; exact hx
        exact ⟨x, r, hm', hx1, fun k => hc ((hsame x r hx1).2.1 k)⟩

theorem clear_error_iff {memLen svcLen : Nat} {h : Host} {l : List DataId} {refs : List Nat} {f : Err}
    (hi : MInv memLen svcLen h.mgr) : h.clear l refs = .error f ↔
      f = .unexpectedDataId ∧ ∃ (k : Nat) (id : DataId) (r : Resv), (h.mgr.pending ++ l)[k]? = some id ∧ refs[k]? = some 0 ∧
        h.mgr.get id = some r ∧ ¬ Carries h id r := by
  refine (clearLoop_error_iff (memLen := memLen) (svcLen := svcLen) _
    (h := { h with mgr := { h.mgr with pending := [] } }) ⟨hi.mem, hi.svc, hi.alig, hi.slot⟩).trans ?_
  refine and_congr_right fun _ => ?_
  constructor
  · rintro ⟨id, r, hm, hr, hc⟩
    obtain ⟨k, hk⟩ := List.mem_iff_getElem?.1 hm
    rw [List.getElem?_zip_eq_some] at hk
    exact ⟨k, id, r, hk.1, hk.2, hr, hc⟩
  · rintro ⟨k, id, r, h1, h2, hr, hc⟩
    exact ⟨id, r, List.mem_iff_getElem?.2 ⟨k, List.getElem?_zip_eq_some.2 ⟨h1, h2⟩⟩, hr, hc⟩

/-- The free list is what is left behind `k` units. -/
def Tail (len k : Nat) (r : Ranges) : Prop := k ≤ len ∧ (r = [(k, len)] ∨ (r = [] ∧ k = len))

theorem tail_occupy {len k n : Nat} {r : Ranges} (hn : 1 ≤ n) (h : Tail len k r) (hk : k + n ≤ len) :
    ∃ r', occupy r n = (some (k, k + n), r') ∧ Tail len (k + n) r' := by
  obtain ⟨-, rfl | ⟨rfl, rfl⟩⟩ := h
  · by_cases he : len = k + n
    · exact ⟨[], by simp [occupy, he], hk, Or.inr ⟨rfl, he.symm⟩⟩
    · exact ⟨[(k + n, len)], by simp [occupy, he, hk], hk, Or.inl rfl⟩
  · omega

theorem sum_filter_le (size : DataId → Nat) (p : DataId → Bool) (l : List DataId) :
    ((l.filter p).map size).sum ≤ (l.map size).sum := by
  induction l with
  | nil => simp
  | cons a t ih =>
    simp only [List.filter_cons]
    split <;> simp <;> omega

theorem sum_filter_add (size : DataId → Nat) (p q : DataId → Bool) (id : DataId) (hq : q id = false)
    (hp : ∀ x, p x = (decide (x = id) || q x)) : ∀ (l : List DataId), l.Nodup → id ∈ l →
    ((l.filter p).map size).sum = ((l.filter q).map size).sum + size id
  | a :: t, hnd, hm => by
    rw [List.nodup_cons] at hnd
    by_cases ha : a = id
    · subst ha
      have ht : t.filter p = t.filter q := List.filter_congr fun x hx => by
        have : x ≠ a := by rintro rfl; exact hnd.1 hx
        simp [hp, this]
      simp only [List.filter_cons, hp a, hq, decide_true, Bool.true_or, if_true, ht, List.map_cons, List.sum_cons]
      simp
      omega
    · have hm' : id ∈ t := by
        rcases List.mem_cons.1 hm with e | e
        · exact absurd e.symm ha
        · exact e
      have ih := sum_filter_add size p q id hq hp t hnd.2 hm'
      have hpa : p a = q a := by simp [hp, ha]
      simp only [List.filter_cons, hpa]
      split
      · simp only [List.map_cons, List.sum_cons, ih]; omega
      · exact ih

/-- Memory and slots in use are those of the objects with a reservation, without gaps. -/
structure Fits (size : DataId → Nat) (objs : List DataId) (memLen svcLen : Nat) (s : State) : Prop where
  mem : Tail memLen ((objs.filter fun id => (s.host.mgr.resv id).isSome).map size).sum s.host.mgr.mem
  svc : Tail svcLen ((objs.filter fun id => (s.host.mgr.resv id).isSome).map fun _ => 4).sum s.host.mgr.svc

theorem fits_init (size : DataId → Nat) (objs : List DataId) (memLen svcLen : Nat) :
    Fits size objs memLen svcLen (State.init memLen svcLen) := by
  have hf : objs.filter (fun _ => false) = [] := List.filter_eq_nil_iff.2 (by simp)
  constructor <;> simp [State.init, Host.init, Mgr.init, FreeMemory.init, Tail, hf]

theorem fits_reserve {size : DataId → Nat} {objs : List DataId} {memLen svcLen : Nat} {s : State} {id : DataId}
    (hnd : objs.Nodup) (hmem : (objs.map size).sum ≤ memLen) (hsvc : 4 * objs.length ≤ svcLen)
    (hf : Fits size objs memLen svcLen s) (hid : id ∈ objs) (hn : 1 ≤ size id) :
    ∃ r first m, s.host.mgr.reserve id (size id) = (.ok (r, first), m) ∧
      Fits size objs memLen svcLen { s with host := { s.host with mgr := m } } ∧ (m.get id).isSome = true ∧
      ∀ x, (s.host.mgr.get x).isSome = true → (m.get x).isSome = true := by
  unfold Mgr.reserve
  cases hg : s.host.mgr.get id with
  | some r => exact ⟨r, false, _, rfl, hf, by simp [hg], fun x hx => hx⟩
  | none =>
    have hsum4 : (objs.map fun _ => 4).sum = 4 * objs.length := by
      clear hnd hmem hsvc hf hid
      induction objs with
      | nil => rfl
      | cons a t ih => simp only [List.map_cons, List.sum_cons, ih, List.length_cons]; omega
    let q : DataId → Bool := fun x => (s.host.mgr.resv x).isSome
    let p : DataId → Bool := fun x => decide (x = id) || q x
    have hq : q id = false := by simp only [Mgr.get] at hg; simp [q, hg]
    have e1 := sum_filter_add size p q id hq (fun x => rfl) objs hnd hid
    have e2 := sum_filter_add (fun _ => 4) p q id hq (fun x => rfl) objs hnd hid
    have l1 := sum_filter_le size p objs
    have l2 := sum_filter_le (fun _ => 4) p objs
    obtain ⟨r1, o1, t1⟩ := tail_occupy hn hf.mem (show ((objs.filter q).map size).sum + size id ≤ memLen by omega)
    obtain ⟨r2, o2, t2⟩ := tail_occupy (n := 4) (by decide) hf.svc
      (show ((objs.filter q).map fun _ => 4).sum + 4 ≤ svcLen by omega)
    simp only [Mgr.put, o1, show infoSize = 4 from rfl, o2]
    have hpq : ∀ (v : Resv), (fun x => (upd s.host.mgr.resv id (some v) x).isSome) = p := by
      intro v
      funext x
      simp only [upd_apply, p, q]
      by_cases hx : x = id <;> simp [hx]
    refine ⟨_, _, _, rfl, ⟨?_, ?_⟩, ?_, ?_⟩
    · simp only [hpq]; rw [e1]; exact t1
    · simp only [hpq]; rw [e2]; exact t2
    · simp [Mgr.get]
    · intro x hx
      simp only [Mgr.get, upd_apply] at hx ⊢
      split
      · rfl
      · exact hx

theorem fits_run {c : Config} {size : DataId → Nat} {objs : List DataId} {memLen svcLen : Nat} (hc : c.shared = true)
    (hnd : objs.Nodup) (hmem : (objs.map size).sum ≤ memLen) (hsvc : 4 * objs.length ≤ svcLen) :
    ∀ (reqs : List (Nat × Req)) {s : State}, Fits size objs memLen svcLen s →
    (∀ src id n, (src, Req.reserve id n) ∈ reqs → id ∈ objs ∧ n = size id ∧ 1 ≤ n) →
    (∀ pre post src x, reqs = pre ++ (src, Req.fetch x) :: post →
      ∃ id, x = some id ∧ ((s.host.mgr.get id).isSome = true ∨ ∃ src' n, (src', Req.reserve id n) ∈ pre)) →
    (∀ src l refs, (src, Req.cleanup l refs) ∉ reqs) → (∀ src, (src, Req.other) ∉ reqs) →
    ∀ f, ((Phase.up s).run c reqs).1 ≠ .raised f
  | [], s, _, _, _, _, _, f => by simp [Phase.run]
  | (src, q) :: qs, s, hf, hres, hfe, hcl, ho, f => by
    have hres' : ∀ src id n, (src, Req.reserve id n) ∈ qs → id ∈ objs ∧ n = size id ∧ 1 ≤ n :=
      fun a id n hm => hres a id n (by simp [hm])
    have hcl' : ∀ src l refs, (src, Req.cleanup l refs) ∉ qs := fun a l r hm => hcl a l r (by simp [hm])
    have ho' : ∀ src, (src, Req.other) ∉ qs := fun a hm => ho a (by simp [hm])
    have hfe' : (∀ id n, q ≠ .reserve id n) → ∀ pre post src x, qs = pre ++ (src, Req.fetch x) :: post →
        ∃ id, x = some id ∧ ((s.host.mgr.get id).isSome = true ∨ ∃ src' n, (src', Req.reserve id n) ∈ pre) := by
      intro hq pre post a x e
      obtain ⟨id, h1, h2⟩ := hfe ((src, q) :: pre) post a x (by rw [e]; rfl)
      refine ⟨id, h1, ?_⟩
      rcases h2 with h2 | ⟨b, n, h2⟩
      · exact Or.inl h2
      · rcases List.mem_cons.1 h2 with e | e
        · cases e; exact absurd rfl (hq _ _)
        · exact Or.inr ⟨b, n, e⟩
    have go : ∀ s1 out, s.serve c src q = (.up s1, out) → ((Phase.up s).run c ((src, q) :: qs)).1 =
        ((Phase.up s1).run c qs).1 := by
      intro s1 out h
      simp only [Phase.run, Phase.step, h]
    have stop : ∀ out, s.serve c src q = (.left, out) → ((Phase.up s).run c ((src, q) :: qs)).1 ≠ .raised f := by
      intro out h
      simp only [Phase.run, Phase.step, h]
      rw [run_not_up c (by simp)]
      simp
    cases q with
    | taskDone ids =>
      rw [go _ _ rfl]
      refine fits_run hc hnd hmem hsvc qs ?_ hres' ?_ hcl' ho' f
      · exact ⟨hf.mem, hf.svc⟩
      · exact hfe' (by simp)
    | wait ids num =>
      rw [go _ _ rfl]
      refine fits_run hc hnd hmem hsvc qs ?_ hres' ?_ hcl' ho' f
      · exact ⟨hf.mem, hf.svc⟩
      · exact hfe' (by simp)
    | taskCount =>
      rw [go _ _ rfl]
      exact fits_run hc hnd hmem hsvc qs hf hres' (hfe' (by simp)) hcl' ho' f
    | poke i v =>
      rw [go _ _ rfl]
      refine fits_run hc hnd hmem hsvc qs ?_ hres' ?_ hcl' ho' f
      · exact ⟨hf.mem, hf.svc⟩
      · exact hfe' (by simp)
    | reserve id n =>
      obtain ⟨hid, rfl, hn⟩ := hres src id n (by simp)
      obtain ⟨r, first, m, hr, hf1, hsome, hmono⟩ := fits_reserve hnd hmem hsvc hf hid hn
      rw [go { s with host := { s.host with mgr := m } } [(src, .reserved r first)] (by simp [State.serve, hc, hr])]
      refine fits_run hc hnd hmem hsvc qs hf1 hres' ?_ hcl' ho' f
      intro pre post a x e
      obtain ⟨id', h1, h2⟩ := hfe ((src, .reserve id (size id)) :: pre) post a x (by rw [e]; rfl)
      refine ⟨id', h1, ?_⟩
      rcases h2 with h2 | ⟨b, n', h2⟩
      · exact Or.inl (hmono _ h2)
      · rcases List.mem_cons.1 h2 with e | e
        · cases e; exact Or.inl hsome
        · exact Or.inr ⟨b, n', e⟩
    | fetch x =>
      obtain ⟨id, rfl, h2⟩ := hfe [] qs src x rfl
      rcases h2 with h2 | ⟨b, n, h2⟩
      · obtain ⟨r, hr⟩ := Option.isSome_iff_exists.1 h2
        rw [go s [(src, .bytes r.first r.last)] (by simp [State.serve, hc, hr])]
        exact fits_run hc hnd hmem hsvc qs hf hres' (hfe' (by simp)) hcl' ho' f
      · simp at h2
    | cleanup l refs => exact absurd (by simp) (hcl src l refs)
    | ready =>
      by_cases hl : (s.readyRanks ++ [src]).length = c.workers.length
      · exact stop (((c.workers ++ c.monitors).filter fun r => r ≠ c.rank).map (fun r => (r, Msg.shutdown)) ++ [(0, .shutdown)])
          (by simp only [State.serve, if_pos hl])
      · rw [go { s with readyRanks := s.readyRanks ++ [src] } [] (by simp only [State.serve, if_neg hl])]
        refine fits_run hc hnd hmem hsvc qs ?_ hres' ?_ hcl' ho' f
        · exact ⟨hf.mem, hf.svc⟩
        · exact hfe' (by simp)
    | shutdown => exact stop _ rfl
    | other => exact absurd (by simp) (ho src)

end Verif.Monitor

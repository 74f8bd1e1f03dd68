import Verif.Lemmas.WorkerCost
import Verif.Lemmas.ClusterExtra
import Verif.Spec.Budget

/-! A potential of the cluster: the number of steps it can still make without new calls. -/
namespace Verif.Cluster
open Verif.Spec
open Verif.Worker

/-! ### Sums -/

theorem sum_le {α : Type} {f g : α → Nat} : ∀ (l : List α), (∀ x ∈ l, f x ≤ g x) → (l.map f).sum ≤ (l.map g).sum
  | [], _ => by simp
  | a :: t, h => by
    have := sum_le t (fun x hx => h x (List.mem_cons_of_mem _ hx))
    have := h a (by simp)
    simp only [List.map_cons, List.sum_cons]
    omega

theorem sum_add_le {α : Type} {f g : α → Nat} {k : Nat} : ∀ (l : List α), (∀ x ∈ l, f x ≤ g x + k) →
    (l.map f).sum ≤ (l.map g).sum + k * l.length
  | [], _ => by simp
  | a :: t, h => by
    have := sum_add_le t (fun x hx => h x (List.mem_cons_of_mem _ hx))
    have := h a (by simp)
    simp only [List.map_cons, List.sum_cons, List.length_cons, Nat.mul_add, Nat.mul_one]
    omega

theorem sum_change {α : Type} {f g : α → Nat} {a : α} {j k : Nat} (ha : f a + j ≤ g a + k) : ∀ (l : List α), l.Nodup →
    a ∈ l → (∀ x ∈ l, x ≠ a → f x ≤ g x) → (l.map f).sum + j ≤ (l.map g).sum + k
  | [], _, hm, _ => by simp at hm
  | b :: t, hn, hm, h => by
    rw [List.nodup_cons] at hn
    simp only [List.map_cons, List.sum_cons]
    rcases List.mem_cons.1 hm with rfl | hm
    · have := sum_le t (f := f) (g := g) (fun x hx => h x (List.mem_cons_of_mem _ hx) (by rintro rfl; exact hn.1 hx))
      omega
    · have := sum_change ha t hn.2 hm (fun x hx hne => h x (List.mem_cons_of_mem _ hx) hne)
      have := h b (by simp) (by rintro rfl; exact hn.1 hm)
      omega

/-- Weight of a channel. -/
def weightIn (l : List Msg) : Nat := (l.map weight).sum

theorem weightIn_append (a b : List Msg) : weightIn (a ++ b) = weightIn a + weightIn b := by simp [weightIn]

theorem split_le : ∀ (R : List Nat), R.Nodup → ∀ (l : List (Nat × Msg)),
    (R.map fun d => weightIn ((l.filter (·.1 = d)).map (·.2))).sum ≤ weightOut l := by
  intro R hR l
  induction l with
  | nil => simp [weightIn, weightOut]
  | cons x t ih =>
    have hx : weightOut (x :: t) = weight x.2 + weightOut t := by simp [weightOut]
    rw [hx]
    by_cases hm : x.1 ∈ R
    · have := sum_change (f := fun d => weightIn (((x :: t).filter (·.1 = d)).map (·.2)))
        (g := fun d => weightIn ((t.filter (·.1 = d)).map (·.2))) (a := x.1) (j := 0) (k := weight x.2)
        (by simp [weightIn]; omega) R hR hm (by
          intro d _ hd
          rw [List.filter_cons_of_neg (by simpa using Ne.symm hd)]
          exact Nat.le_refl _)
      omega
    · have := sum_le (f := fun d => weightIn (((x :: t).filter (·.1 = d)).map (·.2)))
        (g := fun d => weightIn ((t.filter (·.1 = d)).map (·.2))) R (by
          intro d hd
          rw [List.filter_cons_of_neg (by simp only [decide_eq_true_eq]; rintro rfl; exact hm hd)]
          exact Nat.le_refl _)
      omega

/-- Weight of all channels between the processes of a list. -/
def chanCost (R : List Nat) (chan : Nat → Nat → List Msg) : Nat :=
  (R.map fun s => (R.map fun d => weightIn (chan s d)).sum).sum

theorem chanCost_pop {R : List Nat} (hR : R.Nodup) {chan : Nat → Nat → List Msg} {s d : Nat} (hs : s ∈ R) (hd : d ∈ R)
    {k : Msg} {t : List Msg} (hc : chan s d = k :: t) :
    chanCost R (fun s' d' => if s' = s ∧ d' = d then t else chan s' d') + weight k ≤ chanCost R chan := by
  refine sum_change (a := s) (j := weight k) (k := 0) ?_ R hR hs ?_
  · refine sum_change (a := d) (j := weight k) (k := 0) ?_ R hR hd ?_
    · simp [hc, weightIn]; omega
    · intro x _ hx
      simp [hx]
  · intro x _ hx
    apply sum_le
    intro y _
    simp [hx]

theorem chanCost_send {R : List Nat} (hR : R.Nodup) (chan : Nat → Nat → List Msg) (s : Nat) (l : List (Nat × Msg)) :
    chanCost R (sendAll chan s l) ≤ chanCost R chan + weightOut l := by
  by_cases hs : s ∈ R
  · refine sum_change (a := s) (j := 0) (k := weightOut l) ?_ R hR hs ?_
    · have h1 := split_le R hR l
      have h2 : (R.map fun d => weightIn (sendAll chan s l s d)).sum =
          (R.map fun d => weightIn (chan s d)).sum + (R.map fun d => weightIn ((l.filter (·.1 = d)).map (·.2))).sum := by
        clear h1 hR hs
        induction R with
        | nil => rfl
        | cons a t ih =>
          simp only [List.map_cons, List.sum_cons, sendAll, if_true, weightIn_append] at ih ⊢
          omega
      simp only [h2]
      omega
    · intro x _ hx
      apply sum_le
      intro y _
      simp [sendAll, hx]
  · have : chanCost R (sendAll chan s l) ≤ chanCost R chan := by
      apply sum_le
      intro x hx
      apply sum_le
      intro y _
      have : x ≠ s := by rintro rfl; exact hs hx
      simp [sendAll, this]
    omega

/-! ### The potential -/

/-- Potential of the cluster with workers `ws`. -/
def potential (ws : List Nat) (c : Cluster) : Nat :=
  chanCost (0 :: ws) c.chan + (ws.map fun d => (c.worker d).total c.root.nextId).sum

theorem asks_grow (w : Worker) (N : Nat) : ∀ n, w.asks (N + n) ≤ w.asks N + n
  | 0 => by simp
  | n + 1 => by
    have := asks_grow w N n
    simp only [Worker.asks, ← Nat.add_assoc, List.range_succ, List.countP_append, List.countP_singleton] at this ⊢
    split <;> omega

theorem total_grow (w : Worker) (N n : Nat) : w.total (N + n) ≤ w.total N + 2 * n := by
  have := asks_grow w N n
  simp only [Worker.total, Worker.cost]
  omega

theorem pushRef_weight {r r' : Root} {dest id : Nat} {l : List (Nat × Msg)} (h : r.pushRef dest id = some (r', l)) :
    weightOut l ≤ 1 := by
  simp only [Root.pushRef] at h
  split at h
  · split at h <;>
    · simp only [Option.some.injEq, Prod.mk.injEq] at h
      obtain ⟨-, rfl⟩ := h
      simp [weightOut, weight]
  · split at h
    · simp only [Option.some.injEq, Prod.mk.injEq] at h
      obtain ⟨-, rfl⟩ := h
      simp [weightOut, weight]
    · simp at h

mutual
theorem push_weight : ∀ (v : Val) {r r' : Root} {dest : Nat} {l : List (Nat × Msg)}, r.push dest v = some (r', l) →
    weightOut l ≤ (refs v).length
  | .ref i, r, r', dest, l, h => by
    simp only [Root.push] at h
    simpa [refs] using pushRef_weight h
  | .list vs, r, r', dest, l, h => by
    simp only [Root.push] at h
    simpa [refs] using pushList_weight vs h
  | .data _, r, r', dest, l, h => by
    simp only [Root.push, Option.some.injEq, Prod.mk.injEq] at h
    obtain ⟨-, rfl⟩ := h
    simp [weightOut]
  | .exc _, r, r', dest, l, h => by
    simp only [Root.push, Option.some.injEq, Prod.mk.injEq] at h
    obtain ⟨-, rfl⟩ := h
    simp [weightOut]
  | .code _, r, r', dest, l, h => by
    simp only [Root.push, Option.some.injEq, Prod.mk.injEq] at h
    obtain ⟨-, rfl⟩ := h
    simp [weightOut]
theorem pushList_weight : ∀ (vs : List Val) {r r' : Root} {dest : Nat} {l : List (Nat × Msg)},
    r.pushList dest vs = some (r', l) → weightOut l ≤ (refsList vs).length
  | [], r, r', dest, l, h => by
    simp only [Root.pushList, Option.some.injEq, Prod.mk.injEq] at h
    obtain ⟨-, rfl⟩ := h
    simp [weightOut]
  | v :: vs, r, r', dest, l, h => by
    simp only [Root.pushList] at h
    split at h
    · simp at h
    · rename_i h1
      split at h
      · simp at h
      · rename_i h2
        simp only [Option.some.injEq, Prod.mk.injEq] at h
        obtain ⟨-, rfl⟩ := h
        have := push_weight v h1
        have := pushList_weight vs h2
        simp only [weightOut_append, refsList, List.length_append]
        omega
end

theorem potential_flush {ws : List Nat} (hws : (0 :: ws).Nodup) (c : Cluster) {d : Nat} (hd : d ∈ ws) (w : Worker)
    (chan' : Nat → Nat → List Msg) {j k : Nat} (hchan : chanCost (0 :: ws) chan' + j ≤ chanCost (0 :: ws) c.chan)
    (hw : w.total c.root.nextId + k ≤ (c.worker d).total c.root.nextId + j) :
    potential ws ({ c with chan := chan' }.flush d w) + k ≤ potential ws c := by
  simp only [potential, Cluster.flush]
  have h1 := chanCost_send hws chan' d w.outbox
  have h0 : ({ w with outbox := [] } : Worker).total c.root.nextId + weightOut w.outbox = w.total c.root.nextId := by
    simp only [Worker.total, Worker.cost, Worker.asks, weightOut, List.map_nil, List.sum_nil]
    omega
  have h2 := sum_change (f := fun i => (if i = d then { w with outbox := [] } else c.worker i).total c.root.nextId)
    (g := fun i => (c.worker i).total c.root.nextId) (a := d) (j := weightOut w.outbox + k) (k := j)
    (by simp only [if_true]; omega) ws (List.nodup_cons.1 hws).2 hd (by intro x _ hx; simp [hx])
  omega

variable {W : World} {isW : Nat → Bool} {m : Nat} {c c' : Cluster} {calls : List Call} {subs : List Sub}

theorem Inv.ownBelow (h : Inv W isW m c calls subs) {d : Nat} (hd : isW d = true) : OwnBelow c.root.nextId (c.worker d) := by
  intro i hi
  obtain ⟨o, ho⟩ := Option.ne_none_iff_exists'.1 hi
  exact (h.own i o ((h.worker d hd).owner i o ho)).1

/-- Every step that is not a call decreases the potential. -/
theorem potential_step (h : Inv W isW m c calls subs) {ws : List Nat} (hws : (0 :: ws).Nodup)
    (hw : ∀ d, isW d = true ↔ d ∈ ws) (hsend : ∀ s d, s ≠ 0 → isW s = false → c.chan s d = []) {a : Act}
    (hs : c.step W isW a = some (.ok c')) :
    potential ws c' + (if isStep a then 1 else 0) ≤ potential ws c + budget ws.length a := by
  have hsender : ∀ s d k t, c.chan s d = k :: t → s ∈ 0 :: ws := by
    intro s d k t hc
    rw [List.mem_cons, ← hw]
    by_cases h1 : s = 0
    · exact Or.inl h1
    · cases h2 : isW s with
      | true => exact Or.inr rfl
      | false => rw [hsend s d h1 h2] at hc; simp at hc
  cases a with
  | put v =>
    simp only [Cluster.step] at hs
    split at hs
    · simp at hs
    · simp only [Option.some.injEq, Except.ok.injEq] at hs
      subst hs
      have := sum_add_le (f := fun d => (c.worker d).total (c.root.nextId + 1)) (g := fun d => (c.worker d).total c.root.nextId)
        (k := 2) ws (fun d _ => by simpa using total_grow (c.worker d) c.root.nextId 1)
      simp only [potential, isStep, budget]
      simp only [Bool.false_eq_true, if_false]
      omega
  | submit fn args n dest =>
    simp only [Cluster.step] at hs
    split at hs
    · simp at hs
    · split at hs
      · simp at hs
      · rename_i r1 l1 p1
        split at hs
        · simp at hs
        · rename_i r2 l2 p2
          simp only [Option.some.injEq, Except.ok.injEq] at hs
          subst hs
          have hn : r2.nextId = c.root.nextId := by
            have := ((pushRef_spec p1).trans (pushList_spec args p2)).same
            rw [this]
          have h1 := pushRef_weight p1
          have h2 := pushList_weight args p2
          have h3 := fun x => chanCost_send hws c.chan 0 x
          have h4 := sum_add_le (f := fun d => (c.worker d).total (c.root.nextId + n))
            (g := fun d => (c.worker d).total c.root.nextId) (k := 2 * n) ws
            (fun d _ => total_grow (c.worker d) c.root.nextId n)
          simp only [potential, isStep, budget, Root.genOuts, hn]
          simp only [Bool.false_eq_true, if_false]
          refine Nat.le_trans (Nat.add_le_add_right (Nat.add_le_add_right (h3 _) _) _) ?_
          have h5 : ∀ r, weightOut (l1 ++ l2 ++ [(dest, Msg.execute r)]) = weightOut l1 + weightOut l2 + 3 := by
            intro r; simp only [weightOut_append]; rfl
          rw [h5]
          omega
  | get ids =>
    simp only [Cluster.step] at hs
    split at hs
    · simp at hs
    · split at hs
      · simp only [Option.some.injEq, Except.ok.injEq] at hs
        subst hs
        simp [potential, isStep, Root.finishGet]
      · split at hs
        · simp only [Option.some.injEq, Except.ok.injEq] at hs
          subst hs
          simp only [potential, isStep, budget]
          simp only [Bool.false_eq_true, if_false]
          refine Nat.le_trans (Nat.add_le_add_right (Nat.add_le_add_right (chanCost_send hws _ _ _) _) _) ?_
          have : ∀ l : List Nat, weightOut (l.map fun i => ((c.root.owner i).getD 0, Msg.get 0 i true)) = 2 * l.length := by
            intro l
            induction l with
            | nil => rfl
            | cons a t ih => simp only [weightOut, List.map_cons, List.sum_cons, weight, List.length_cons] at ih ⊢; omega
          rw [this]
          have := List.length_filter_le (fun i => (c.root.store i).isNone) ids
          omega
        · simp at hs
  | reply src =>
    simp only [Cluster.step] at hs
    split at hs
    · rename_i wt id v t hwt hc
      split at hs
      · simp only [Option.some.injEq, Except.ok.injEq] at hs
        have h1 := chanCost_pop hws (hsender _ _ _ _ hc) (List.mem_cons_self (a := 0) (l := ws)) hc
        simp only [weight] at h1
        have hn : c'.root.nextId = c.root.nextId := by rw [← hs]; dsimp only; split <;> rfl
        have hwk : c'.worker = c.worker := by rw [← hs]
        have hch : c'.chan = fun s d => if s = src ∧ d = 0 then t else c.chan s d := by rw [← hs]
        simp only [potential, hn, hwk, hch, isStep, budget, if_true]
        omega
      · simp at hs
    · simp at hs
  | deliver src dst =>
    simp only [Cluster.step] at hs
    split at hs
    · rename_i hd
      split at hs
      · simp at hs
      · rename_i k t hc
        split at hs
        · simp at hs
        · rename_i w' hh
          simp only [Option.some.injEq, Except.ok.injEq] at hs
          subst hs
          have hk := h.chan src dst k (by rw [hc]; simp)
          have h1 := handle_total (h.ownBelow hd) (by
            rintro id o rfl
            exact (h.own id o hk).1) hh
          have h2 := chanCost_pop hws (hsender _ _ _ _ hc) (List.mem_cons_of_mem 0 ((hw dst).1 hd)) hc
          have := potential_flush hws c ((hw dst).1 hd) w' _ (j := weight k) (k := 1) h2 h1.1
          simp only [isStep, budget, if_true]
          omega
    · simp at hs
  | complete w i =>
    simp only [Cluster.step] at hs
    split at hs
    · rename_i hd
      simp only [Option.some.injEq, Except.ok.injEq] at hs
      subst hs
      have h1 := complete_total (h.ownBelow hd.1) hd.2
      have := potential_flush hws c ((hw w).1 hd.1) ((c.worker w).complete i) c.chan (j := 0) (k := 1) (by omega) (by omega)
      simp only [isStep, budget, if_true]
      exact this
    · simp at hs

theorem potential_run (hW : W.Plain) (h0 : isW 0 = false) {ws : List Nat} (hws : (0 :: ws).Nodup)
    (hw : ∀ d, isW d = true ↔ d ∈ ws) : ∀ (acts : List Act) {c c' : Cluster} {calls : List Call} {subs : List Sub},
    Inv W isW m c calls subs → (∀ s d, s ≠ 0 → isW s = false → c.chan s d = []) → (∀ a ∈ acts, PlainAct a) →
    c.run W isW acts = some c' →
    potential ws c' + (acts.filter isStep).length ≤ potential ws c + (acts.map (budget ws.length)).sum
  | [], c, c', calls, subs, h, _, _, hr => by
    simp only [Cluster.run, Option.some.injEq] at hr
    subst hr
    simp
  | a :: as, c, c', calls, subs, h, hsend, ha, hr => by
    simp only [Cluster.run] at hr
    split at hr
    · rename_i c1 hs
      obtain ⟨l1, h1, -⟩ := inv_step hW h0 h (ha a (by simp)) hs
      have h2 := potential_run hW h0 hws hw as h1 (senders_step hsend hs) (fun b hb => ha b (List.mem_cons_of_mem _ hb)) hr
      have h3 := potential_step h hws hw hsend hs
      simp only [List.map_cons, List.sum_cons]
      by_cases hb : isStep a = true
      · simp only [List.filter_cons_of_pos hb, List.length_cons, hb, if_true] at h3 ⊢
        omega
      · simp only [Bool.not_eq_true] at hb
        simp only [hb, Bool.false_eq_true, if_false] at h3
        rw [List.filter_cons_of_neg (by simp [hb])]
        omega
    · simp at hr

theorem potential_init (ws : List Nat) (m : Nat) : potential ws (Cluster.init m) = 0 := by
  have h : ∀ l : List Nat, (l.map fun _ => 0).sum = 0 := by
    intro l; induction l with
    | nil => rfl
    | cons a t ih => simp
  have h1 : ∀ r : Nat, (Worker.init r m).total 0 = 0 := by
    intro r; simp [Worker.total, Worker.cost, Worker.asks, Worker.init, weightOut]
  simp only [potential, chanCost, Cluster.init, weightIn, List.map_nil, List.sum_nil, h1, h]

end Verif.Cluster

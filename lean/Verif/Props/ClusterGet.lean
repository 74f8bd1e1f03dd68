import Verif.Props.Cluster
import Verif.Lemmas.ClusterLive

/-! Exactly when `get` raises (C35). -/
namespace Verif.Cluster
open Verif.Spec
open Verif.Worker

variable {W : World} {isW : Nat → Bool} {m : Nat} {c : Cluster} {calls : List Call} {subs : List Sub}

/-- What is known about the results of `get` from the store of the main process. -/
structure GetInv (r : Root) : Prop where
  stored : ∀ p ∈ r.results, ∀ i ∈ p.1, r.store i ≠ none
  fresh : ∀ wt, r.waiting = some wt → ∀ i ∈ wt.remote, ∀ p ∈ r.results, i ∉ p.1
  owned : ∀ wt, r.waiting = some wt → ∀ i ∈ wt.remote, r.owner i ≠ none
  failed : ∀ wt e, r.waiting = some wt → wt.failed = some e → ∃ i ∈ wt.remote, r.store i = some (.exc e)
  raised : ∀ pre ids e post, r.results = pre ++ (ids, .raised e) :: post →
    ∃ i ∈ ids, r.store i = some (.exc e) ∧ r.owner i ≠ none ∧ ∀ p ∈ pre, i ∉ p.1

/-- Values and owners are only added. -/
theorem GetInv.mono {r r' : Root} (h : GetInv r) (hs : ∀ i v, r.store i = some v → r'.store i = some v)
    (ho : ∀ i, r.owner i ≠ none → r'.owner i ≠ none) (hw : r'.waiting = r.waiting) (hr : r'.results = r.results) : GetInv r' := by
  have hn : ∀ i, r.store i ≠ none → r'.store i ≠ none := by
    intro i hi
    obtain ⟨v, hv⟩ := Option.ne_none_iff_exists'.1 hi
    rw [hs i v hv]; simp
  refine ⟨?_, ?_, ?_, ?_, ?_⟩
  · rw [hr]; exact fun p hp i hi => hn i (h.stored p hp i hi)
  · rw [hr, hw]; exact h.fresh
  · rw [hw]; exact fun wt hwt i hi => ho i (h.owned wt hwt i hi)
  · rw [hw]
    intro wt e hwt he
    obtain ⟨i, hi, hv⟩ := h.failed wt e hwt he
    exact ⟨i, hi, hs i _ hv⟩
  · rw [hr]
    intro pre ids e post he
    obtain ⟨i, hi, hv, h1, h2⟩ := h.raised pre ids e post he
    exact ⟨i, hi, hs i _ hv, ho i h1, h2⟩

theorem getInv_finish {r : Root} {ids : List Nat} {failed : Option Nat} (h : GetInv r) (hst : ∀ i ∈ ids, r.store i ≠ none)
    (hf : ∀ e, failed = some e → ∃ i ∈ ids, r.store i = some (.exc e) ∧ r.owner i ≠ none ∧ ∀ p ∈ r.results, i ∉ p.1) :
    GetInv (r.finishGet ids failed) := by
  refine ⟨?_, by simp [Root.finishGet], by simp [Root.finishGet], by simp [Root.finishGet], ?_⟩
  · intro p hp i hi
    simp only [Root.finishGet, List.mem_append, List.mem_singleton] at hp ⊢
    rcases hp with hp | rfl
    · exact h.stored p hp i hi
    · exact hst i hi
  · intro pre ids' e post he
    simp only [Root.finishGet] at he ⊢
    rcases List.eq_nil_or_concat post with hn | ⟨post', x, hn⟩
    · subst hn
      obtain ⟨h1, h2⟩ := List.append_inj' he rfl
      simp only [List.cons.injEq, Prod.mk.injEq, and_true] at h2
      obtain ⟨rfl, h2⟩ := h2
      subst h1
      cases failed with
      | none => simp at h2
      | some e' =>
        simp only [GetResult.raised.injEq] at h2
        subst h2
        exact hf e' rfl
    · subst hn
      rw [List.concat_eq_append, ← List.cons_append, ← List.append_assoc] at he
      obtain ⟨h1, -⟩ := List.append_inj' he rfl
      exact h.raised pre ids' e post' h1

theorem getInv_step (h : Inv W isW m c calls subs) (hg : GetInv c.root) {a : Act} {c' : Cluster} (hs : c.step W isW a = some (.ok c')) :
    GetInv c'.root := by
  cases a with
  | put v =>
    simp only [Cluster.step] at hs
    split at hs
    · simp at hs
    · simp only [Option.some.injEq, Except.ok.injEq] at hs
      subst hs
      refine hg.mono (fun i u hu => ?_) (fun i hi => hi) rfl rfl
      have : i < c.root.nextId := h.dom i (by rw [h.rstore i u hu]; simp)
      simp only [upd]
      rw [if_neg (by omega)]; exact hu
  | submit fn args n dest =>
    simp only [Cluster.step] at hs
    split at hs
    · simp at hs
    · split at hs
      · simp at hs
      · rename_i r1 l1 h1
        split at hs
        · simp at hs
        · rename_i r2 l2 h2
          have e1 := pushRef_spec h1
          have e2 := pushList_spec args h2
          simp only [Root.genOuts, Option.some.injEq, Except.ok.injEq] at hs
          subst hs
          refine hg.mono (fun i u hu => ?_) (fun i hi => ?_) ?_ ?_
          · have : r2.store = c.root.store := by rw [e2.same, e1.same]
            simpa [this] using hu
          · have : r2.owner = c.root.owner := by rw [e2.same, e1.same]
            simp only [this]
            split
            · simp
            · exact hi
          · simp only; rw [e2.same, e1.same]
          · simp only; rw [e2.same, e1.same]
  | get ids =>
    simp only [Cluster.step] at hs
    split at hs
    · simp at hs
    · rename_i hw
      simp only [Option.not_isSome_iff_eq_none, Bool.not_eq_true, Option.isSome_eq_false_iff, Option.isNone_iff_eq_none] at hw
      split at hs
      · rename_i he
        simp only [Option.some.injEq, Except.ok.injEq] at hs
        subst hs
        refine getInv_finish (failed := none) hg (fun i hi hn => ?_) (fun e he => by cases he)
        simp only [List.isEmpty_iff, List.filter_eq_nil_iff, Option.isNone_iff_eq_none] at he
        exact he i hi hn
      · split at hs
        · rename_i hall
          simp only [Option.some.injEq, Except.ok.injEq] at hs
          subst hs
          have hrem : ∀ i ∈ ids.filter (fun i => (c.root.store i).isNone), c.root.store i = none := by
            intro i hi
            simpa using (List.mem_filter.1 hi).2
          refine ⟨hg.stored, ?_, ?_, ?_, hg.raised⟩
          · intro wt hwt i hi p hp hip
            simp only [Option.some.injEq] at hwt
            subst hwt
            exact hg.stored p hp i hip (hrem i hi)
          · intro wt hwt i hi
            simp only [Option.some.injEq] at hwt
            subst hwt
            simp only [List.all_eq_true] at hall
            exact Option.isSome_iff_ne_none.1 (hall i hi)
          · intro wt e hwt he
            simp only [Option.some.injEq] at hwt
            subst hwt
            simp at he
        · simp at hs
  | reply src =>
    simp only [Cluster.step] at hs
    split at hs
    · rename_i wt id v t hw hc
      split at hs
      · rename_i hid
        simp only [Option.some.injEq, Except.ok.injEq] at hs
        subst hs
        have hmem : id ∈ dataIds (c.chan src 0) := mem_dataIds.2 ⟨v, by rw [hc]; simp⟩
        have hnone := (h.dataS src (h.dataOwner hmem).2 id hmem).2
        have hmono : ∀ i u, c.root.store i = some u → upd c.root.store id v i = some u := by
          intro i u hu
          simp only [upd]
          rw [if_neg (by rintro rfl; rw [hnone] at hu; simp at hu)]; exact hu
        have hid' : upd c.root.store id v id = some v := by simp [upd]
        have hg1 : GetInv { c.root with store := upd c.root.store id v } := hg.mono hmono (fun i hi => hi) rfl rfl
        have hfail : ∀ e, (wt.failed <|> excOf v) = some e → ∃ i ∈ wt.remote, upd c.root.store id v i = some (.exc e) := by
          intro e he
          cases hf : wt.failed with
          | some e' =>
            rw [hf] at he
            simp only [Option.orElse_eq_orElse, Option.orElse_some, Option.some.injEq] at he
            subst he
            obtain ⟨i, hi, hv⟩ := hg.failed wt e' hw hf
            exact ⟨i, hi, hmono i _ hv⟩
          | none =>
            rw [hf] at he
            simp only [Option.orElse_eq_orElse, Option.orElse_none] at he
            cases v <;> simp [excOf] at he
            subst he
            exact ⟨id, hid, hid'⟩
        simp only
        split
        · rename_i hmiss
          obtain ⟨got, g1, g2, g3, g4, g5, g6, g7, -⟩ := h.wait wt hw
          have hrs : ∀ i ∈ wt.remote, upd c.root.store id v i ≠ none := by
            have hng : id ∉ got := fun hx => g5 id hx hnone
            have hnd : (id :: got).Nodup := List.nodup_cons.2 ⟨hng, g1⟩
            have hsub : (id :: got).Subperm wt.remote := List.subperm_of_subset hnd (by
              intro x hx
              rcases List.mem_cons.1 hx with rfl | hx
              · exact hid
              · exact g2 x hx)
            have hperm := hsub.perm_of_length_le (by simp only [List.length_cons]; omega)
            intro i hi
            rcases List.mem_cons.1 (hperm.mem_iff.2 hi) with rfl | hx
            · rw [hid']; simp
            · obtain ⟨u, hu⟩ := Option.ne_none_iff_exists'.1 (g5 i hx)
              rw [hmono i u hu]; simp
          refine getInv_finish hg1 (fun i hi => ?_) (fun e he => ?_)
          · change upd c.root.store id v i ≠ none
            rcases g6 i hi with h1 | h1
            · obtain ⟨u, hu⟩ := Option.ne_none_iff_exists'.1 h1
              rw [hmono i u hu]; simp
            · exact hrs i h1
          · obtain ⟨i, hi, hv⟩ := hfail e he
            exact ⟨i, g7 i hi, hv, hg.owned wt hw i hi, hg.fresh wt hw i hi⟩
        · refine ⟨hg1.stored, ?_, ?_, ?_, hg1.raised⟩
          · intro wt' hwt'
            simp only [Option.some.injEq] at hwt'
            subst hwt'
            exact hg.fresh wt hw
          · intro wt' hwt'
            simp only [Option.some.injEq] at hwt'
            subst hwt'
            exact hg.owned wt hw
          · intro wt' e hwt' he
            simp only [Option.some.injEq] at hwt'
            subst hwt'
            exact hfail e he
      · simp at hs
    · simp at hs
  | deliver src dst =>
    simp only [Cluster.step] at hs
    split at hs
    · split at hs
      · simp at hs
      · split at hs
        · simp at hs
        · simp only [Option.some.injEq, Except.ok.injEq] at hs
          subst hs
          exact hg
    · simp at hs
  | complete w i =>
    simp only [Cluster.step] at hs
    split at hs
    · simp only [Option.some.injEq, Except.ok.injEq] at hs
      subst hs
      exact hg
    · simp at hs

theorem getInv_run (hW : W.Plain) (h0 : isW 0 = false) : ∀ (acts : List Act) {c c' : Cluster} {calls : List Call}
    {subs : List Sub}, Inv W isW m c calls subs → GetInv c.root → (∀ a ∈ acts, PlainAct a) → c.run W isW acts = some c' → GetInv c'.root
  | [], c, c', _, _, _, hg, _, hr => by
    simp only [Cluster.run, Option.some.injEq] at hr
    subst hr
    exact hg
  | a :: as, c, c', calls, subs, h, hg, ha, hr => by
    simp only [Cluster.run] at hr
    split at hr
    · rename_i c1 hs
      obtain ⟨l1, h1, -⟩ := inv_step hW h0 h (ha a (by simp)) hs
      exact getInv_run hW h0 as h1 (getInv_step h hg hs) (fun b hb => ha b (List.mem_cons_of_mem _ hb)) hr
    · simp at hr

/-- How often a reference is in the list of a `get`: in the lists of those that returned at most once, unless its value was there. -/
structure GetOnce (r : Root) : Prop where
  part : ∀ wt, r.waiting = some wt → wt.remote.Sublist wt.ids
  whole : ∀ wt, r.waiting = some wt → ∀ i, r.owner i ≠ none → (∀ p ∈ r.results, i ∉ p.1) → wt.remote.count i = wt.ids.count i
  once : ∀ pre p post, r.results = pre ++ p :: post → ∀ i, r.owner i ≠ none → (∀ q ∈ pre, i ∉ q.1) → p.1.count i ≤ 1

theorem GetOnce.mono {r r' : Root} (h : GetOnce r) (hg : GetInv r) (hw0 : r.waiting = none) (hw : r'.waiting = r.waiting)
    (hr : r'.results = r.results) (ho : ∀ i, r.store i ≠ none → r'.owner i ≠ none → r.owner i ≠ none) : GetOnce r' := by
  refine ⟨by rw [hw, hw0]; simp, by rw [hw, hw0]; simp, ?_⟩
  rw [hr]
  intro pre p post he i hi hp
  by_cases hm : i ∈ p.1
  · exact h.once pre p post he i (ho i (hg.stored p (by rw [he]; simp) i hm) hi) hp
  · rw [List.count_eq_zero.2 hm]; omega

theorem getOnce_finish {r r0 : Root} {ids : List Nat} {failed : Option Nat} (h : GetOnce r0) (hr : r.results = r0.results)
    (ho : r.owner = r0.owner)
    (hc : ∀ i, r0.owner i ≠ none → (∀ q ∈ r0.results, i ∉ q.1) → ids.count i ≤ 1) : GetOnce (r.finishGet ids failed) := by
  refine ⟨by simp [Root.finishGet], by simp [Root.finishGet], ?_⟩
  intro pre p post he i hi hp
  simp only [Root.finishGet] at he hi
  rw [ho] at hi
  rw [hr] at he
  rcases List.eq_nil_or_concat post with hn | ⟨post', x, hn⟩
  · subst hn
    obtain ⟨h1, h2⟩ := List.append_inj' he rfl
    simp only [List.cons.injEq, and_true] at h2
    subst h1
    rw [← h2]
    exact hc i hi hp
  · subst hn
    rw [List.concat_eq_append, ← List.cons_append, ← List.append_assoc] at he
    obtain ⟨h1, -⟩ := List.append_inj' he rfl
    exact h.once pre p post' h1 i hi hp

theorem getOnce_step (h : Inv W isW m c calls subs) (hg : GetInv c.root) (hn : GetOnce c.root) {a : Act} {c' : Cluster}
    (hs : c.step W isW a = some (.ok c')) : GetOnce c'.root := by
  cases a with
  | put v =>
    simp only [Cluster.step] at hs
    split at hs
    · simp at hs
    · rename_i hw
      simp only [Option.some.injEq, Except.ok.injEq] at hs
      subst hs
      exact hn.mono hg (by simpa using hw) rfl rfl (fun i _ hi => hi)
  | submit fn args n dest =>
    simp only [Cluster.step] at hs
    split at hs
    · simp at hs
    · rename_i hw
      simp only [Bool.or_eq_true, Bool.not_eq_true', not_or, Bool.not_eq_false, Bool.not_eq_true, Option.isSome_eq_false_iff,
        Option.isNone_iff_eq_none] at hw
      split at hs
      · simp at hs
      · rename_i r1 l1 h1
        split at hs
        · simp at hs
        · rename_i r2 l2 h2
          have e1 := pushRef_spec h1
          have e2 := pushList_spec args h2
          simp only [Root.genOuts, Option.some.injEq, Except.ok.injEq] at hs
          subst hs
          refine hn.mono hg hw.1.1 (by simp only; rw [e2.same, e1.same]) (by simp only; rw [e2.same, e1.same]) (fun i hi ho => ?_)
          have hlt : i < c.root.nextId := by
            obtain ⟨u, hu⟩ := Option.ne_none_iff_exists'.1 hi
            exact h.dom i (by rw [h.rstore i u hu]; simp)
          have e3 : r2.owner = c.root.owner := by rw [e2.same, e1.same]
          have e4 : r2.nextId = c.root.nextId := by rw [e2.same, e1.same]
          simp only [e3, e4] at ho
          split at ho
          · rename_i hm
            simp only [List.mem_map, List.mem_range] at hm
            obtain ⟨k, -, hk⟩ := hm
            omega
          · exact ho
  | get ids =>
    simp only [Cluster.step] at hs
    split at hs
    · simp at hs
    · rename_i hw
      have hw : c.root.waiting = none := by simpa using hw
      have hfetch : ∀ i, c.root.owner i ≠ none → (∀ q ∈ c.root.results, i ∉ q.1) → c.root.store i = none := by
        intro i hi hq
        refine Classical.byContradiction fun hne => ?_
        rcases h.fetched i hne hi with ⟨p, hp, hip⟩ | ⟨wt, hwt, -⟩
        · exact hq p hp hip
        · rw [hw] at hwt; simp at hwt
      split at hs
      · rename_i he
        simp only [Option.some.injEq, Except.ok.injEq] at hs
        subst hs
        refine getOnce_finish (r := c.root) (failed := none) hn rfl rfl (fun i hi hq => ?_)
        simp only [List.isEmpty_iff, List.filter_eq_nil_iff, Option.isNone_iff_eq_none] at he
        rw [List.count_eq_zero.2 (fun hm => he i hm (hfetch i hi hq))]; omega
      · split at hs
        · simp only [Option.some.injEq, Except.ok.injEq] at hs
          subst hs
          refine ⟨?_, ?_, hn.once⟩
          · intro wt hwt
            simp only [Option.some.injEq] at hwt
            subst hwt
            exact List.filter_sublist
          · intro wt hwt i hi hq
            simp only [Option.some.injEq] at hwt
            subst hwt
            simp only
            rw [List.count_filter]
            simp [hfetch i hi hq]
        · simp at hs
  | reply src =>
    simp only [Cluster.step] at hs
    split at hs
    · rename_i wt id v t hw hc
      split at hs
      · rename_i hid
        simp only [Option.some.injEq, Except.ok.injEq] at hs
        subst hs
        have hmem : id ∈ dataIds (c.chan src 0) := mem_dataIds.2 ⟨v, by rw [hc]; simp⟩
        have hnone := (h.dataS src (h.dataOwner hmem).2 id hmem).2
        simp only
        split
        · rename_i hmiss
          refine getOnce_finish hn rfl rfl (fun i hi hq => ?_)
          rw [← hn.whole wt hw i hi hq]
          exact List.nodup_iff_count.1 (h.wait_last hw hmiss hid hnone v).1 i
        · refine ⟨?_, ?_, hn.once⟩
          · intro wt' hwt'
            simp only [Option.some.injEq] at hwt'
            subst hwt'
            exact hn.part wt hw
          · intro wt' hwt'
            simp only [Option.some.injEq] at hwt'
            subst hwt'
            exact hn.whole wt hw
      · simp at hs
    · simp at hs
  | deliver src dst =>
    simp only [Cluster.step] at hs
    split at hs
    · split at hs
      · simp at hs
      · split at hs
        · simp at hs
        · simp only [Option.some.injEq, Except.ok.injEq] at hs
          subst hs
          exact hn
    · simp at hs
  | complete w i =>
    simp only [Cluster.step] at hs
    split at hs
    · simp only [Option.some.injEq, Except.ok.injEq] at hs
      subst hs
      exact hn
    · simp at hs

theorem getOnce_run (hW : W.Plain) (h0 : isW 0 = false) : ∀ (acts : List Act) {c c' : Cluster} {calls : List Call}
    {subs : List Sub}, Inv W isW m c calls subs → GetInv c.root → GetOnce c.root → (∀ a ∈ acts, PlainAct a) →
    c.run W isW acts = some c' → GetOnce c'.root
  | [], c, c', _, _, _, _, hn, _, hr => by
    simp only [Cluster.run, Option.some.injEq] at hr
    subst hr
    exact hn
  | a :: as, c, c', calls, subs, h, hg, hn, ha, hr => by
    simp only [Cluster.run] at hr
    split at hr
    · rename_i c1 hs
      obtain ⟨l1, h1, -⟩ := inv_step hW h0 h (ha a (by simp)) hs
      exact getOnce_run hW h0 as h1 (getInv_step h hg hs) (getOnce_step h hg hn hs) (fun b hb => ha b (List.mem_cons_of_mem _ hb)) hr
    · simp at hr

end Verif.Cluster

namespace Verif.Props
open Verif.Cluster
open Verif.Spec
open Verif.Worker

theorem getInv_of_run {W : World} {isW : Nat → Bool} {m : Nat} {acts : List Act} {c : Cluster}
    (hcode : ∀ f args v, refsList args = [] → W.call f args = .ret v → refs v = [])
    (hput : ∀ v, Act.put v ∈ acts → refs v = []) (h0 : isW 0 = false) (hrun : (Cluster.init m).run W isW acts = some c) : GetInv c.root :=
  getInv_run hcode h0 acts (inv_init W isW m)
    ⟨by simp [Cluster.init], by simp [Cluster.init], by simp [Cluster.init], by simp [Cluster.init], by simp [Cluster.init]⟩
    (fun a ha => by cases a <;> first | exact hput _ ha | trivial) hrun

theorem getOnce_of_run {W : World} {isW : Nat → Bool} {m : Nat} {acts : List Act} {c : Cluster}
    (hcode : ∀ f args v, refsList args = [] → W.call f args = .ret v → refs v = [])
    (hput : ∀ v, Act.put v ∈ acts → refs v = []) (h0 : isW 0 = false) (hrun : (Cluster.init m).run W isW acts = some c) : GetOnce c.root :=
  getOnce_run hcode h0 acts (inv_init W isW m)
    ⟨by simp [Cluster.init], by simp [Cluster.init], by simp [Cluster.init], by simp [Cluster.init], by simp [Cluster.init]⟩
    ⟨by simp [Cluster.init], by simp [Cluster.init], by simp [Cluster.init]⟩
    (fun a ha => by cases a <;> first | exact hput _ ha | trivial) hrun

/-- Partial: exactly when `get` raises. It raises if and only if its list contains a reference of a task that was not in the list of an
earlier `get` and whose value is an exception; the exception it raises is the value of such a reference. Otherwise it returns the values of all
references of the list, among them the exceptions that were fetched before. Missing: references that were in an earlier list
(`C35_violated`). -/
theorem C35_exact_partial {W : World} {isW : Nat → Bool} {m : Nat} {acts : List Act} {c : Cluster}
    (hcode : ∀ f args v, refsList args = [] → W.call f args = .ret v → refs v = [])
    (hput : ∀ v, Act.put v ∈ acts → refs v = []) (h0 : isW 0 = false) (hrun : (Cluster.init m).run W isW acts = some c)
    {pre post : List (List Nat × GetResult)} {ids : List Nat} {res : GetResult} (hres : c.root.results = pre ++ (ids, res) :: post) :
    let failing := fun (i e : Nat) => (∃ fn args outs, (fn, args, outs) ∈ submits (callsOf 0 acts) ∧ i ∈ outs) ∧
      (∀ p ∈ pre, i ∉ p.1) ∧ meaning W (callsOf 0 acts) i = some (.exc e)
    ((∃ e, res = .raised e) ↔ ∃ i ∈ ids, ∃ e, failing i e) ∧ (∀ e, res = .raised e → ∃ i ∈ ids, failing i e) ∧
      ∀ vs, res = .values vs → ids.map (meaning W (callsOf 0 acts)) = vs.map some := by
  intro failing
  obtain ⟨subs, h⟩ := run_inv hcode hput h0 hrun
  have hg := getInv_of_run hcode hput h0 hrun
  have h2 : ∀ e, res = .raised e → ∃ i ∈ ids, failing i e := by
    rintro e rfl
    obtain ⟨i, hi, hv, ho, hp⟩ := hg.raised pre ids e post hres
    obtain ⟨o, ho⟩ := Option.ne_none_iff_exists'.1 ho
    obtain ⟨-, -, t, s, hs, hio, -⟩ := h.own i o ho
    exact ⟨i, hi, ⟨s.fn, s.args, s.outs, h.mem_submits (List.mem_of_getElem? hs), hio⟩, hp, h.rstore i _ hv⟩
  have hr := h.results pre ids res post hres
  refine ⟨⟨fun ⟨e, he⟩ => ?_, ?_⟩, h2, ?_⟩
  · obtain ⟨i, hi, hf⟩ := h2 e he
    exact ⟨i, hi, e, hf⟩
  · rintro ⟨i, hi, e, ⟨fn, args, outs, hs, hio⟩, hp, hD⟩
    cases res with
    | raised e' => exact ⟨e', rfl⟩
    | values vs =>
      obtain ⟨s, hsub, rfl, rfl, rfl⟩ := h.sub_of hs
      have ho : c.root.owner i ≠ none := by
        have := h.ok.own s hsub i hio
        simp only [ctx] at this
        rw [this]; simp
      exact absurd hD (hr.2 i hi ho hp e)
  · rintro vs rfl
    exact hr.1

/-- Two tasks fail; they are fetched one after the other, then both together. -/
def exFailTwo : List Act :=
  [.put (.code 2), .put (.code 0), .submit 0 [] 1 2, .submit 1 [] 1 2, .get [2], .deliver 0 2, .deliver 0 2, .deliver 0 2, .deliver 0 2,
   .deliver 0 2, .reply 2, .get [2, 3], .deliver 0 2, .reply 2, .get [2, 3]]

/-- The second `get` raises the error of the reference that is new in its list; the third returns both exceptions as values. -/
example : ((Cluster.init 1).run exWorld (· == 2) exFailTwo).map (·.root.results) =
    some [([2], .raised 9), ([2, 3], .raised 5), ([2, 3], .values [.exc 9, .exc 5])] := by decide +kernel

/-- What becomes of the outputs of a task with several outputs that returns a sequence: exactly the outputs that the sequence is too short for
never get a value, and no `get` of a list with one of these ever ends, neither with values nor with an error. Missing: an error
(`C42_violated`). -/
theorem C42_never_partial {W : World} {isW : Nat → Bool} {m : Nat} {acts : List Act} {c : Cluster}
    (hcode : ∀ f args v, refsList args = [] → W.call f args = .ret v → refs v = [])
    (hput : ∀ v, Act.put v ∈ acts → refs v = []) (h0 : isW 0 = false) (hrun : (Cluster.init m).run W isW acts = some c)
    {fn : Nat} {args : List Val} {outs : List Nat} (hs : (fn, args, outs) ∈ submits (callsOf 0 acts)) (h2 : 2 ≤ outs.length) {vs : List Val}
    (hr : taskResult W (meaning W (callsOf 0 acts)) fn args = some (.ret (.list vs))) {k o : Nat} (hk : outs[k]? = some o) :
    (meaning W (callsOf 0 acts) o = none ↔ vs.length ≤ k) ∧ (vs.length ≤ k → ∀ p ∈ c.root.results, o ∉ p.1) := by
  have hm := (C42_no_wrong_value_partial hcode hput h0 hrun hs h2 hr hk).1
  have h1 : meaning W (callsOf 0 acts) o = none ↔ vs.length ≤ k := by rw [hm]; simp
  refine ⟨h1, fun hle p hp ho => ?_⟩
  obtain ⟨subs, h⟩ := run_inv hcode hput h0 hrun
  obtain ⟨v, hv⟩ := Option.ne_none_iff_exists'.1 ((getInv_of_run hcode hput h0 hrun).stored p hp o ho)
  have := h.rstore o v hv
  rw [h1.2 hle] at this
  cases this

/-- A function submitted with two results returns one: the first can be fetched. -/
example : ((Cluster.init 1).run exWorld (· == 2) [.put (.code 3), .submit 0 [] 2 2, .get [1], .deliver 0 2, .deliver 0 2, .deliver 0 2, .reply 2,
    .get [2], .deliver 0 2]).map (fun c => (c.root.results, c.root.waiting.map (·.missing), c.chan 2 0)) =
    some ([([1], .values [.data 1])], some 1, []) := by decide +kernel

end Verif.Props

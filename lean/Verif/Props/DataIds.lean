import Verif.Lemmas.DataIds

/-! Properties C20, C21, C22: references. -/
namespace Verif.Props
open Verif.Ids

/-- C20: in every interleaving of requests for new references by all processes, the identities (the texts used for
equality and hashing) of all references ever made are pairwise different. -/
theorem C20_references_unique (gs : List Gen) (start : Nat → Nat) :
    ((generateAll gs start).1.map idText).Nodup := by
  have h := (generateAll_spec gs start).2
  generalize (generateAll gs start).1 = l at h
  induction l with
  | nil => simp
  | cons a t ih =>
    simp only [List.map_cons, List.nodup_cons] at h ⊢
    refine ⟨?_, ih h.2⟩
    intro hm
    obtain ⟨b, hb, he⟩ := List.mem_map.1 hm
    rw [idText_injective he] at hb
    exact h.1 hb

/-- Each request gets as many references as asked for, all of the asking process. -/
theorem C20_request_served (r k : Nat) (cs : Counters) :
    (generate r k cs).1.length = k ∧ ∀ id ∈ (generate r k cs).1, id.rank = r :=
  ⟨(generate_spec r k cs).2.2.1, fun id h => ((generate_spec r k cs).1 id h).1⟩

example : (generateAll [⟨0, 2⟩, ⟨3, 1⟩, ⟨0, 1⟩] (fun _ => 0)).1 = [⟨0, 0⟩, ⟨0, 1⟩, ⟨3, 0⟩, ⟨0, 2⟩] := rfl

/-- C21: parsing either textual form of a reference gives its two numbers. -/
theorem C21_parse_exact (d : DataId) :
    parseId (reprText d) = some (d.rank, d.num) ∧ parseId (idText d) = some (d.rank, d.num) :=
  ⟨parseId_reprText d, parseId_idText d⟩

/-- C21: different references have different pairs of numbers in shared metadata. -/
theorem C21_metadata_injective (d e : DataId) (h : parseId (reprText d) = parseId (reprText e)) : d = e := by
  rw [parseId_reprText, parseId_reprText] at h
  cases d; cases e
  simp_all

example : reprText ⟨12, 305⟩ = "DataID(rank_12_id_305)".toList := by
  simp [reprText, idText, decimal, digitChar]

/-- C22: after any history of a process, two live objects with the same identity are the same object. -/
theorem C22_one_live_object (rank : Nat) (es : List Ev) (p : Proc) (hr : (Proc.init rank).run es = some p)
    (a b : Nat) (o o' : IdObj) (ha : p.heap[a]? = some o) (hb : p.heap[b]? = some o') (hl : 0 < o.refs) (hl' : 0 < o'.refs)
    (he : o.id = o'.id) : a = b := by
  have g := good_run es (good_init rank) hr
  have h1 := g.alive_find a o ha hl
  have h2 := g.alive_find b o' hb hl'
  rw [he, h2] at h1
  exact (Option.some.inj h1).symm

theorem run_rank {p p' : Proc} (es : List Ev) (hr : p.run es = some p') : p'.rank = p.rank := by
  induction es generalizing p with
  | nil => simp only [Proc.run, Option.some.injEq] at hr; rw [hr]
  | cons e t ih =>
    simp only [Proc.run] at hr
    split at hr
    · rw [ih hr]
      cases e <;> simp only [Proc.step, Proc.new, Proc.setGc, Proc.drop] <;> repeat' split
      all_goals first | rfl | simp_all
    · cases hr

/-- C22: a reference created by the process (number below the counter) is reported at most once, and as long as it is
not reported it has a live object. References that were only received, or not created yet, are never reported. -/
theorem C22_reported_exactly_once (rank : Nat) (es : List Ev) (p : Proc) (hr : (Proc.init rank).run es = some p) :
    (∀ n < p.counter, (p.reported.count ⟨rank, n⟩ = 1) ∨
      (p.reported.count ⟨rank, n⟩ = 0 ∧ ∃ (a : Nat) (o : IdObj), p.heap[a]? = some o ∧ o.id = ⟨rank, n⟩ ∧ 0 < o.refs)) ∧
    (∀ id : DataId, id.rank ≠ rank ∨ p.counter ≤ id.num → id ∉ p.reported) := by
  have g := good_run es (good_init rank) hr
  have hrank : p.rank = rank := run_rank es hr
  refine ⟨?_, ?_⟩
  · intro n hn
    obtain ⟨a, o, h1, h2, h3⟩ := g.owned n hn
    rw [hrank] at h2
    have := g.count_gc a o h1 h3
    rw [h2] at this
    by_cases h0 : o.refs = 0
    · rw [if_pos h0] at this; exact Or.inl this
    · rw [if_neg h0] at this; exact Or.inr ⟨this, a, o, h1, h2, by omega⟩
  · intro id hid hm
    have := g.count_other id (by rw [hrank]; exact hid)
    rw [List.count_eq_zero] at this
    exact this hm

/-- C22: a dropping step reports exactly when it destroys the object made by the creation. -/
theorem C22_report_at_last_drop (rank : Nat) (es : List Ev) (p : Proc) (hr : (Proc.init rank).run es = some p) (e : Ev) :
    (p.step e).reported = p.reported ∨
    ∃ a o, e = .drop a ∧ p.heap[a]? = some o ∧ o.refs = 1 ∧ o.id.rank = rank ∧ o.id ∉ p.reported ∧
      (p.step e).reported = p.reported ++ [o.id] := by
  have g := good_run es (good_init rank) hr
  have hrank : p.rank = rank := run_rank es hr
  cases e with
  | drop a =>
    simp only [Proc.step, Proc.drop]
    split
    · exact Or.inl rfl
    · rename_i o ho
      split
      · exact Or.inl rfl
      · split
        · rename_i h0 h1
          cases hg : o.gc with
          | false => simp
          | true =>
            right
            refine ⟨a, o, rfl, ho, h1, hrank ▸ g.gc_own a o ho hg, ?_, by simp⟩
            have := g.count_gc a o ho hg
            rw [h1] at this
            exact List.count_eq_zero.1 (by simpa using this)
        · exact Or.inl rfl
  | create => left; simp only [Proc.step, Proc.new, Proc.setGc]; split <;> rfl
  | receive id => left; simp only [Proc.step, Proc.new]; split <;> rfl
  | cleanup id => left; simp only [Proc.step, Proc.new, Proc.setGc]; split <;> rfl
  | copy a => left; simp only [Proc.step]; repeat' split
              all_goals rfl

/-- Created, received back while alive (same object), dropped twice: reported once; received again later: a new object,
never reported. -/
example : ((Proc.init 2).run [.create, .receive ⟨2, 0⟩, .drop 0, .drop 0, .receive ⟨2, 0⟩, .drop 1, .receive ⟨5, 1⟩, .drop 2]).map
    (fun p => (p.counter, p.reported, p.heap.length)) = some (1, [⟨2, 0⟩], 3) := by decide

/-- C22: dropping the last reference to the object made by the creation reports it, and each drop takes away exactly one of the
references that were made. -/
theorem C22_last_drop_reports (rank : Nat) (es : List Ev) (p : Proc) (hr : (Proc.init rank).run es = some p) (a : Nat) (o : IdObj)
    (ha : p.heap[a]? = some o) (hl : 0 < o.refs) :
    (p.step (.drop a)).heap[a]? = some { o with refs := o.refs - 1 } ∧
    (p.step (.copy a)).heap[a]? = some { o with refs := o.refs + 1 } ∧
    (o.refs = 1 → o.id.rank = rank → o.id.num < p.counter → o.id ∉ p.reported → (p.step (.drop a)).reported = p.reported ++ [o.id]) := by
  have g := good_run es (good_init rank) hr
  have hrank : p.rank = rank := run_rank es hr
  have hlen : a < p.heap.length := (List.getElem?_eq_some_iff.1 ha).1
  refine ⟨?_, ?_, fun h1 h2 h3 h4 => ?_⟩
  · simp only [Proc.step, Proc.drop, ha]
    rw [if_neg (by omega)]
    split
    · rename_i h1; simp [h1, ha]
    · simp [ha]
  · simp only [Proc.step, ha]
    rw [if_neg (by omega)]
    simp [ha]
  · obtain ⟨b, o', k1, k2, k3⟩ := g.owned o.id.num h3
    have hid : o'.id = o.id := by rw [k2, hrank, ← h2]
    have hc := g.count_gc b o' k1 k3
    rw [hid, List.count_eq_zero.2 h4] at hc
    have hl' : 0 < o'.refs := by
      rcases Nat.eq_zero_or_pos o'.refs with h0 | h0
      · rw [if_pos h0] at hc; omega
      · exact h0
    have e := C22_one_live_object rank es p hr a b o o' ha k1 hl hl' hid.symm
    subst e
    rw [ha, Option.some.injEq] at k1
    subst k1
    simp [Proc.step, Proc.drop, ha, h1, k3]

example : ((Proc.init 2).run [.create, .copy 0, .drop 0]).map (fun p => (p.reported, (p.step (.drop 0)).reported)) =
    some ([], [⟨2, 0⟩]) := by decide

/-- C22: the histories are all that can happen: a process can always create data, copy and drop references, and receive references of other processes and its
own earlier ones. -/
theorem C22_possible (rank : Nat) (es : List Ev) (p : Proc) (hr : (Proc.init rank).run es = some p) :
    (∃ q, (Proc.init rank).run (es ++ [.create]) = some q ∧ q.counter = p.counter + 1) ∧
    (∀ a, ∃ q, (Proc.init rank).run (es ++ [.copy a]) = some q) ∧ (∀ a, ∃ q, (Proc.init rank).run (es ++ [.drop a]) = some q) ∧
    (∀ id : DataId, id.rank ≠ rank ∨ id.num < p.counter → ∃ q, (Proc.init rank).run (es ++ [.receive id]) = some q) ∧
    ∀ id : DataId, id.rank ≠ rank → ∃ q, (Proc.init rank).run (es ++ [.cleanup id]) = some q := by
  have hrank : p.rank = rank := run_rank es hr
  have happ : ∀ (xs : List Ev) (s u : Proc) (e : Ev), s.run xs = some u → s.run (xs ++ [e]) = u.run [e] := by
    intro xs
    induction xs with
    | nil => intro s u e h; simp only [Proc.run, Option.some.injEq] at h; subst h; rfl
    | cons x xs ih =>
      intro s u e h
      simp only [Proc.run] at h
      split at h
      · rename_i hx
        simp only [List.cons_append, Proc.run, hx, if_true]
        exact ih _ u e h
      · simp at h
  refine ⟨⟨_, by rw [happ es _ p _ hr]; rfl, ?_⟩, fun a => ⟨_, by rw [happ es _ p _ hr]; rfl⟩, fun a => ⟨_, by rw [happ es _ p _ hr]; rfl⟩,
    fun id h => ⟨(p.step (.receive id)), ?_⟩, fun id h => ⟨(p.step (.cleanup id)), ?_⟩⟩
  · simp only [Proc.step]
  · rw [happ es _ p _ hr]
    have : p.allowed (.receive id) = true := by simpa [Proc.allowed, hrank] using h
    simp [Proc.run, this]
  · rw [happ es _ p _ hr]
    have : p.allowed (.cleanup id) = true := by simpa [Proc.allowed, hrank] using h
    simp [Proc.run, this]

/-- Rank 2 receives its own first reference after having created it, and a foreign one. -/
example : ((Proc.init 2).run [.create, .receive ⟨2, 0⟩, .cleanup ⟨5, 1⟩, .copy 0]).isSome = true ∧ ((Proc.init 2).run [.receive ⟨2, 0⟩]).isSome = false := by decide

end Verif.Props

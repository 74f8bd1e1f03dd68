import Verif.Model.Retention
import Mathlib.Data.List.Perm.Basic

namespace Verif.Retention

theorem find_assign (k : Option Nat) (x : Entry) (l : List (Option Nat × Entry)) (k' : Option Nat) :
    find (assign k x l) k' = if k' = k then some x else find l k' := by
  induction l with
  | nil => by_cases h : k' = k <;> simp [assign, find, h, eq_comm]
  | cons e l ih =>
    simp only [assign]
    by_cases he : e.1 = k
    · rw [if_pos he]
      by_cases h : k' = k
      · subst h; simp [find]
      · have h1 : ¬ k = k' := fun h' => h h'.symm
        have h2 : ¬ e.1 = k' := by rw [he]; exact h1
        simp [find, h, h1, h2]
    · rw [if_neg he]
      by_cases h2 : e.1 = k'
      · have : ¬ k' = k := by rw [← h2]; exact he
        simp [find, h2, this]
      · have h3 : find (e :: assign k x l) k' = find (assign k x l) k' := by simp [find, h2]
        have h4 : find (e :: l) k' = find l k' := by simp [find, h2]
        rw [h3, h4, ih]

theorem keys_assign (k : Option Nat) (x : Entry) (l : List (Option Nat × Entry)) :
    (assign k x l).map (·.1) = if k ∈ l.map (·.1) then l.map (·.1) else l.map (·.1) ++ [k] := by
  induction l with
  | nil => simp [assign]
  | cons e l ih =>
    simp only [assign]
    by_cases he : e.1 = k
    · simp [he]
    · rw [if_neg he, List.map_cons, ih]
      have : ¬ k = e.1 := fun h => he h.symm
      by_cases hk : k ∈ l.map (·.1)
      · rw [if_pos hk, if_pos (by simp only [List.map_cons, List.mem_cons]; exact .inr hk)]; rfl
      · rw [if_neg hk, if_neg (by simp only [List.map_cons, List.mem_cons]; exact fun h => h.elim this hk)]; rfl

theorem find_isSome (l : List (Option Nat × Entry)) (k : Option Nat) : (find l k).isSome ↔ k ∈ l.map (·.1) := by
  simp [find, Option.isSome_map, List.find?_isSome, List.mem_map]

theorem find_append (l m : List (Option Nat × Entry)) (k : Option Nat) (h : k ∈ l.map (·.1)) : find (l ++ m) k = find l k := by
  have := (find_isSome l k).2 h
  simp only [find, Option.isSome_map] at this
  simp only [find, List.find?_append]
  cases hh : List.find? (fun e => decide (e.1 = k)) l with
  | none => rw [hh] at this; simp at this
  | some v => simp

theorem find_append_right (l m : List (Option Nat × Entry)) (k : Option Nat) (h : k ∉ l.map (·.1)) : find (l ++ m) k = find m k := by
  have hn : List.find? (fun e : Option Nat × Entry => decide (e.1 = k)) l = none := by
    rw [List.find?_eq_none]; intro e he; simp only [decide_eq_true_eq]; intro hk; exact h (List.mem_map.2 ⟨e, he, hk⟩)
  simp only [find, List.find?_append, hn, Option.none_or]

/-- The assignments of a list of pairs change nothing else. -/
theorem find_assigns_of_not_mem (l : List (Nat × Entry)) : ∀ (st : List (Option Nat × Entry)) (k : Option Nat),
    (∀ p ∈ l, some p.1 ≠ k) → find (assigns l st) k = find st k := by
  induction l with
  | nil => intro st k _; rfl
  | cons p l ih =>
    intro st k h
    have : assigns (p :: l) st = assigns l (assign (some p.1) p.2 st) := rfl
    rw [this, ih _ _ (fun q hq => h q (List.mem_cons_of_mem _ hq)), find_assign, if_neg (fun hk => h p List.mem_cons_self hk.symm)]

theorem keys_assigns (l : List (Nat × Entry)) : ∀ (st : List (Option Nat × Entry)), (∀ p ∈ l, some p.1 ∈ st.map (·.1)) →
    (assigns l st).map (·.1) = st.map (·.1) := by
  induction l with
  | nil => intro st _; rfl
  | cons p l ih =>
    intro st h
    have : assigns (p :: l) st = assigns l (assign (some p.1) p.2 st) := rfl
    have hk : (assign (some p.1) p.2 st).map (·.1) = st.map (·.1) := by rw [keys_assign, if_pos (h p List.mem_cons_self)]
    rw [this, ih _ (fun q hq => by rw [hk]; exact h q (List.mem_cons_of_mem _ hq)), hk]

/-- A task changes the entries of its results only, or adds that of the key `None`. -/
theorem find_write (t : Task) (st : List (Option Nat × Entry)) (out : Option (List Nat)) (r : Nat) (h : r ∉ t.ids) :
    find (t.write st out) (some r) = find st (some r) := by
  cases out with
  | none =>
    simp only [Task.write]
    split
    · rw [find_assign, if_neg (by simp)]
    · apply find_assigns_of_not_mem
      intro p hp; obtain ⟨q, hq, rfl⟩ := List.mem_map.1 hp
      intro hh; cases hh; exact h hq
  | some v =>
    simp only [Task.write]
    split
    · rfl
    · rename_i r' he; rw [find_assign, if_neg]; intro hh; cases hh; rw [he] at h; simp at h
    · apply find_assigns_of_not_mem
      intro p hp hh; cases hh
      exact h (List.of_mem_zip hp).1

theorem keys_write (t : Task) (st : List (Option Nat × Entry)) (out : Option (List Nat)) (h : ∀ r ∈ t.ids, some r ∈ st.map (·.1)) :
    (t.write st out).map (·.1) = st.map (·.1) ∨ ((t.write st out).map (·.1) = st.map (·.1) ++ [none] ∧ none ∉ st.map (·.1)) := by
  cases out with
  | none =>
    simp only [Task.write]
    split
    · rw [keys_assign]; split
      · exact .inl rfl
      · rename_i hn; exact .inr ⟨rfl, hn⟩
    · refine .inl (keys_assigns _ _ ?_)
      intro p hp; obtain ⟨q, hq, rfl⟩ := List.mem_map.1 hp; exact h q hq
  | some v =>
    simp only [Task.write]
    split
    · exact .inl rfl
    · rename_i r he; rw [keys_assign, if_pos (h r (by rw [he]; simp))]; exact .inl rfl
    · exact .inl (keys_assigns _ _ fun p hp => h p.1 (List.of_mem_zip hp).1)

theorem fst_puts (xs : List Entry) (m : Nat) : (xs.mapIdx fun i x => ((some (m + i) : Option Nat), x)).map (·.1) = (List.range xs.length).map fun i => some (m + i) := by
  apply List.ext_getElem (by simp); intro i h1 h2; simp

theorem filterMap_fst (l : List (Option Nat × Entry)) : l.filterMap (·.1) = (l.map (·.1)).filterMap id := by
  rw [List.filterMap_map]; rfl

/-- The invariant of a history. -/
structure Inv (s : State) : Prop where
  keys : (s.store.map (·.1)).filterMap id = List.range s.next
  none : (s.store.map (·.1)).Nodup
  held : ∀ r ∈ s.held, r < s.next
  args : ∀ t ∈ s.queue, ∀ r ∈ t.args, r < s.next
  ids : ∀ t ∈ s.queue, ∀ r ∈ t.ids, find s.store (some r) = some .delayed
  nodup : (s.queue.flatMap (·.ids)).Nodup

theorem Inv.mem {s : State} (h : Inv s) {r : Nat} : some r ∈ s.store.map (·.1) ↔ r < s.next := by
  rw [← List.mem_range, ← h.keys, List.mem_filterMap]; simp

theorem Inv.init : Inv State.init := ⟨rfl, by simp [State.init], by simp [State.init], by simp [State.init], by simp [State.init], by simp [State.init]⟩

theorem Inv.puts {s : State} (h : Inv s) (xs : List Entry) : Inv (s.puts xs) := by
  have hk : (s.puts xs).store.map (·.1) = s.store.map (·.1) ++ (List.range xs.length).map fun i => some (s.next + i) := by
    simp only [State.puts, List.map_append, fst_puts]
  refine ⟨?_, ?_, fun r hr => ?_, fun t ht r hr => ?_, fun t ht r hr => ?_, h.nodup⟩
  · rw [hk, List.filterMap_append, h.keys, List.filterMap_map]
    simp only [State.puts, List.range_add]
    congr 1
    rw [← List.filterMap_eq_map]; rfl
  · rw [hk, List.nodup_append]
    refine ⟨h.none, ?_, ?_⟩
    · rw [List.nodup_iff_pairwise_ne, List.pairwise_map]
      exact (List.nodup_range (n := xs.length)).imp fun hne hh => hne (by simpa using hh)
    · intro a ha b hb hab
      subst hab
      obtain ⟨i, _, rfl⟩ := List.mem_map.1 hb
      have := h.mem.1 ha; omega
  · have := h.held r hr; simp only [State.puts]; omega
  · have := h.args t ht r hr; simp only [State.puts]; omega
  · have h1 := h.ids t ht r hr
    have : some r ∈ s.store.map (·.1) := by rw [← find_isSome, h1]; rfl
    simp only [State.puts]
    rw [find_append _ _ _ this, h1]

theorem puts_find {s : State} (h : Inv s) (xs : List Entry) (i : Nat) (hi : i < xs.length) : find (s.puts xs).store (some (s.next + i)) = some xs[i] := by
  have hn : some (s.next + i) ∉ s.store.map (·.1) := by rw [h.mem]; omega
  simp only [State.puts]
  rw [find_append_right _ _ _ hn]
  have : ∀ (ys : List Entry) (m i : Nat) (hi : i < ys.length), find (ys.mapIdx fun j x => ((some (m + j) : Option Nat), x)) (some (m + i)) = some ys[i] := by
    intro ys
    induction ys with
    | nil => intro m i hi; simp at hi
    | cons y ys ih =>
      intro m i hi
      rw [List.mapIdx_cons]
      cases i with
      | zero => simp [find]
      | succ i =>
        have h1 := ih (m + 1) i (by simpa using hi)
        have h2 : (fun j x => ((some (m + (j + 1)) : Option Nat), (x : Entry))) = fun j x => (some (m + 1 + j), x) := by
          funext j x; simp; omega
        have h3 : m + (i + 1) = m + 1 + i := by omega
        rw [h2, List.getElem_cons_succ, ← h1, h3]
        simp only [find]
        rw [List.find?_cons_of_neg]
        simp; omega
  exact this xs s.next i hi

theorem results_length (n : Nat) (out : Option (List Nat)) (h : (results n out).2 = true) : (results n out).1.length = n := by
  cases out with
  | none => simp [results]
  | some v =>
    simp only [results] at h ⊢
    split at h
    · rename_i hn; simp [hn]
    · rename_i hn; rw [if_neg hn]; simp only [decide_eq_true_eq] at h; simp; omega

theorem results_le (n : Nat) (out : Option (List Nat)) : (results n out).1.length ≤ n := by
  cases out with
  | none => simp [results]
  | some v =>
    simp only [results]
    split
    · rename_i hn; simp [hn]
    · simp; omega

theorem step_inv {b : Backend} {s s' : State} {o : Op} (h : Inv s) (hs : s.step b o = some s') : Inv s' := by
  cases o with
  | put v =>
    simp only [State.step, Option.some.injEq] at hs; subst hs
    have hp := h.puts [.value v]
    refine ⟨hp.keys, hp.none, fun r hr => ?_, hp.args, hp.ids, hp.nodup⟩
    rcases List.mem_append.1 hr with hr | hr
    · exact hp.held r hr
    · simp only [List.mem_singleton] at hr; subst hr; simp [State.puts]
  | drop r =>
    simp only [State.step] at hs
    split at hs
    · simp only [Option.some.injEq] at hs; subst hs
      exact ⟨h.keys, h.none, fun q hq => h.held q (List.mem_of_mem_erase hq), h.args, h.ids, h.nodup⟩
    · simp at hs
  | call n args out =>
    simp only [State.step] at hs
    split at hs
    rotate_left
    · simp at hs
    rename_i hargs
    simp only [List.all_eq_true, decide_eq_true_eq] at hargs
    cases b with
    | pymp =>
      simp only [Option.some.injEq] at hs; subst hs
      have hp := h.puts (List.replicate n .delayed)
      have hids : ∀ r ∈ (List.range n).map (s.next + ·), find (s.puts (List.replicate n .delayed)).store (some r) = some .delayed := by
        intro r hr
        obtain ⟨i, hi, rfl⟩ := List.mem_map.1 hr
        have := puts_find h (List.replicate n .delayed) i (by simpa using hi)
        simpa using this
      refine ⟨hp.keys, hp.none, fun r hr => ?_, fun t ht r hr => ?_, fun t ht r hr => ?_, ?_⟩
      · rcases List.mem_append.1 hr with hr | hr
        · exact hp.held r hr
        · obtain ⟨i, hi, rfl⟩ := List.mem_map.1 hr
          simp only [List.mem_range] at hi; simp only [State.puts, List.length_replicate]; omega
      · rcases List.mem_append.1 ht with ht | ht
        · exact hp.args t ht r hr
        · simp only [List.mem_singleton] at ht; subst ht; exact hp.held r (hargs r hr)
      · rcases List.mem_append.1 ht with ht | ht
        · exact hp.ids t ht r hr
        · simp only [List.mem_singleton] at ht; subst ht; exact hids r hr
      · rw [List.flatMap_append, List.nodup_append]
        refine ⟨h.nodup, ?_, ?_⟩
        · simp only [List.flatMap_cons, List.flatMap_nil, List.append_nil]
          rw [List.nodup_iff_pairwise_ne, List.pairwise_map]
          exact (List.nodup_range (n := n)).imp fun hne hh => hne (by omega)
        · intro a ha c hc hac
          subst hac
          simp only [List.flatMap_cons, List.flatMap_nil, List.append_nil] at hc
          obtain ⟨i, hi, rfl⟩ := List.mem_map.1 hc
          obtain ⟨t, ht, hr⟩ := List.mem_flatMap.1 ha
          have h1 := h.ids t ht _ hr
          have : some (s.next + i) ∈ s.store.map (·.1) := by rw [← find_isSome, h1]; rfl
          have := h.mem.1 this; omega
    | pyseq =>
      simp only at hs
      split at hs
      · simp only [Option.some.injEq] at hs; subst hs; exact h
      · simp only [Option.some.injEq] at hs; subst hs
        have hp := h.puts (results n out).1
        refine ⟨hp.keys, hp.none, fun r hr => ?_, hp.args, hp.ids, hp.nodup⟩
        simp only at hr
        split at hr
        · rename_i hok
          rcases List.mem_append.1 hr with hr | hr
          · exact hp.held r hr
          · obtain ⟨i, hi, rfl⟩ := List.mem_map.1 hr
            simp only [List.mem_range] at hi
            simp only [State.puts, results_length n out hok]; omega
        · exact hp.held r hr
  | exec i =>
    cases b with
    | pyseq => simp [State.step] at hs
    | pymp =>
      simp only [State.step] at hs
      split at hs
      case h_2 => simp at hs
      rename_i t _ ht
      split at hs
      · simp at hs
      rename_i bad _
      simp only [Option.some.injEq] at hs; subst hs
      obtain ⟨hi, hti⟩ := List.getElem?_eq_some_iff.1 ht
      have htm : t ∈ s.queue := hti ▸ List.getElem_mem hi
      have hin : ∀ r ∈ t.ids, some r ∈ s.store.map (·.1) := fun r hr => by rw [← find_isSome, h.ids t htm r hr]; rfl
      have hperm : (s.queue.flatMap (·.ids)).Perm (t.ids ++ (s.queue.eraseIdx i).flatMap (·.ids)) := by
        have : s.queue.Perm (t :: s.queue.eraseIdx i) := hti ▸ (List.getElem_cons_eraseIdx_perm hi).symm
        exact (this.flatMap_right _)
      have hnd := hperm.nodup_iff.1 h.nodup
      rw [List.nodup_append] at hnd
      refine ⟨?_, ?_, h.held, fun u hu => h.args u (List.mem_of_mem_eraseIdx hu), fun u hu r hr => ?_, hnd.2.1⟩
      · rcases keys_write t s.store (if bad then none else t.out) hin with hk | ⟨hk, _⟩
        · simp only [hk]; exact h.keys
        · simp only [hk, List.filterMap_append, h.keys]; simp
      · rcases keys_write t s.store (if bad then none else t.out) hin with hk | ⟨hk, hn⟩
        · simp only [hk]; exact h.none
        · simp only [hk]; rw [List.nodup_append]
          refine ⟨h.none, by simp, ?_⟩
          intro a ha c hc hac; simp only [List.mem_singleton] at hc; subst hc; subst hac; exact hn ha
      · have hrt : r ∉ t.ids := fun hh => hnd.2.2 r hh r (List.mem_flatMap.2 ⟨u, hu, hr⟩) rfl
        simp only
        rw [find_write _ _ _ _ hrt]
        exact h.ids u (List.mem_of_mem_eraseIdx hu) r hr

/-- No entry of a reference goes away, and a finished one does not change. -/
theorem step_keeps {b : Backend} {s s' : State} {o : Op} (h : Inv s) (hs : s.step b o = some s') (r : Nat) (e : Entry)
    (he : find s.store (some r) = some e) : ∃ e', find s'.store (some r) = some e' ∧ (e ≠ .delayed → e' = e) := by
  have hm : some r ∈ s.store.map (·.1) := by rw [← find_isSome, he]; rfl
  have hputs : ∀ xs, find (s.puts xs).store (some r) = some e := by
    intro xs; simp only [State.puts]; rw [find_append _ _ _ hm, he]
  have same : ∀ {q : State}, find q.store (some r) = some e → ∃ e', find q.store (some r) = some e' ∧ (e ≠ .delayed → e' = e) :=
    fun hq => ⟨e, hq, fun _ => rfl⟩
  cases o with
  | put v => simp only [State.step, Option.some.injEq] at hs; subst hs; exact same (hputs _)
  | drop q =>
    simp only [State.step] at hs
    split at hs
    · simp only [Option.some.injEq] at hs; subst hs; exact same he
    · simp at hs
  | call n args out =>
    simp only [State.step] at hs
    split at hs
    rotate_left
    · simp at hs
    cases b with
    | pymp => simp only [Option.some.injEq] at hs; subst hs; exact same (hputs _)
    | pyseq =>
      simp only at hs
      split at hs
      · simp only [Option.some.injEq] at hs; subst hs; exact same he
      · simp only [Option.some.injEq] at hs; subst hs; exact same (hputs _)
  | exec i =>
    cases b with
    | pyseq => simp [State.step] at hs
    | pymp =>
      simp only [State.step] at hs
      split at hs
      case h_2 => simp at hs
      rename_i t _ ht
      split at hs
      · simp at hs
      rename_i bad _
      simp only [Option.some.injEq] at hs; subst hs
      obtain ⟨hi, hti⟩ := List.getElem?_eq_some_iff.1 ht
      have htm : t ∈ s.queue := hti ▸ List.getElem_mem hi
      by_cases hr : r ∈ t.ids
      · have hd := h.ids t htm r hr
        rw [he] at hd; cases hd
        have hk := keys_write t s.store (if bad then none else t.out) fun q hq => by rw [← find_isSome, h.ids t htm q hq]; rfl
        have : some r ∈ (t.write s.store (if bad then none else t.out)).map (·.1) := by
          rcases hk with hk | ⟨hk, _⟩
          · rw [hk]; exact hm
          · rw [hk]; exact List.mem_append_left _ hm
        obtain ⟨e', he'⟩ := Option.isSome_iff_exists.1 ((find_isSome _ _).2 this)
        exact ⟨e', he', fun hne => absurd rfl hne⟩
      · exact same (by simp only; rw [find_write _ _ _ _ hr, he])

theorem run_inv {b : Backend} {os : List Op} : ∀ {s s' : State}, Inv s → s.run b os = some s' → Inv s' := by
  induction os with
  | nil => intro s s' h hr; simp only [State.run, Option.some.injEq] at hr; exact hr ▸ h
  | cons o os ih =>
    intro s s' h hr
    simp only [State.run, Option.bind_eq_some_iff] at hr
    obtain ⟨u, hu, hr⟩ := hr
    exact ih (step_inv h hu) hr

theorem run_keeps {b : Backend} {os : List Op} : ∀ {s s' : State}, Inv s → s.run b os = some s' → ∀ r e, find s.store (some r) = some e →
    ∃ e', find s'.store (some r) = some e' ∧ (e ≠ .delayed → e' = e) := by
  induction os with
  | nil => intro s s' h hr r e he; simp only [State.run, Option.some.injEq] at hr; subst hr; exact ⟨e, he, fun _ => rfl⟩
  | cons o os ih =>
    intro s s' h hr r e he
    simp only [State.run, Option.bind_eq_some_iff] at hr
    obtain ⟨u, hu, hr⟩ := hr
    obtain ⟨e1, h1, h2⟩ := step_keeps h hu r e he
    obtain ⟨e2, h3, h4⟩ := ih (step_inv h hu) hr r e1 h1
    exact ⟨e2, h3, fun hne => by have := h2 hne; subst this; exact h4 hne⟩

theorem run_append {b : Backend} (os os' : List Op) : ∀ (s : State), s.run b (os ++ os') = (s.run b os).bind fun u => u.run b os' := by
  induction os with
  | nil => intro s; rfl
  | cons o os ih =>
    intro s
    simp only [List.cons_append, State.run]
    cases s.step b o with
    | none => rfl
    | some u => simp only [Option.bind_some]; exact ih u

end Verif.Retention

import Verif.Lemmas.LifetimeLeak
import Verif.Lemmas.LifetimeFlow

/-! No program of tasks hangs, whatever is cleaned up in between. -/
namespace Verif.Lifetime

/-- The tasks among messages. -/
def tasksOf (c : List Msg) : List Task := c.filterMap fun m => match m with | .task t => some t | _ => none

theorem tasksOf_append (a b : List Msg) : tasksOf (a ++ b) = tasksOf a ++ tasksOf b := by simp [tasksOf]

theorem tasksOf_none {c : List Msg} (h : ∀ t, Msg.task t ∉ c) : tasksOf c = [] := by
  unfold tasksOf
  rw [List.filterMap_eq_nil_iff]
  intro m hm
  cases m with
  | task t => exact absurd hm (h t)
  | _ => rfl

theorem mem_tasksOf {c : List Msg} {t : Task} : t ∈ tasksOf c ↔ Msg.task t ∈ c := by
  unfold tasksOf
  rw [List.mem_filterMap]
  constructor
  · rintro ⟨m, hm, e⟩
    cases m with
    | task u => cases e; exact hm
    | _ => cases e
  · intro h
    exact ⟨_, h, rfl⟩

/-- The value of a reference is somewhere. -/
def Exists (s : Sys) (i : Nat) : Prop := (∃ w, i ∈ (s.worker w).data) ∨ i ∈ s.stored ∨ ∃ x y, (x, y, Msg.data i) ∈ s.net

/-- The request of `w` for a reference owned by `o` is under way, noted or answered. -/
def Asked (s : Sys) (w o i : Nat) : Prop :=
  (w, o, Msg.ask i w) ∈ s.net ∨ (i, w) ∈ (s.worker o).asks ∨ (o, w, Msg.data i) ∈ s.net

structure Live (s : Sys) : Prop where
  order : ∀ w, ((s.worker w).tasks ++ tasksOf (chan 0 w s.net)).Pairwise Before
  args : ∀ w t, Unf s w t → (∀ i ∈ t.args, i < s.next) ∧ ∀ i ∈ t.args, ∀ j ∈ t.outs, i < j
  small : ∀ i, Exists s i → i < s.next
  once : ∀ i, Exists s i → ∀ w t, Unf s w t → i ∉ t.outs
  root : ∀ x m, (x, 0, m) ∈ s.net → ∃ i, m = .data i
  askMsg : ∀ x y i z, (x, y, Msg.ask i z) ∈ s.net → z = x ∧ x ≠ y ∧ s.owner i = some y
  asksOk : ∀ w, ∀ a ∈ (s.worker w).asks, s.owner a.1 = some w ∧ a.2 ≠ w ∧ (a.1 ∈ s.cleaned ∨ a.1 ∉ (s.worker w).data)
  asked : ∀ w, ∀ j ∈ (s.worker w).asked, j ∉ (s.worker w).data ∧ (∃ t ∈ (s.worker w).tasks, j ∈ t.args) ∧ s.owner j ≠ some w
  answered : ∀ w, ∀ j ∈ (s.worker w).asked, ∃ o, s.owner j = some o ∧ Asked s w o j
  sentOk : ∀ o i w, (i, w) ∈ (s.worker o).sent → w ≠ 0 → i ∉ s.cleaned → (i ∈ (s.worker w).strong ∧ i ∈ (s.worker w).data) ∨ (o, w, Msg.data i) ∈ s.net
  sentRoot : ∀ o i, (i, 0) ∈ (s.worker o).sent → i ∈ s.held → i ∈ s.stored ∨ (o, 0, Msg.data i) ∈ s.net
  sentSmall : ∀ o i w, (i, w) ∈ (s.worker o).sent → i < s.next
  pend : ∀ w, ∀ t ∈ (s.worker w).tasks, t.args ≠ [] ∧ ∀ i ∈ t.args, i ∈ (s.worker w).asked ∨ s.owner i = some w
  missing : ∀ w, ∀ t ∈ (s.worker w).tasks, ∀ i ∈ t.args, i ∉ (s.worker w).data
  waitNodup : s.waiting.Nodup
  wait : ∀ i ∈ s.waiting, i ∈ s.held ∧ i ∉ s.stored ∧ ∃ o, s.owner i = some o ∧ Asked s 0 o i

theorem live_init (ws : List Nat) : Live (Sys.init ws) where
  order := by simp [Sys.init, Proc.init, chan, tasksOf]
  args := by simp [Sys.init, Proc.init, Unf]
  small := by simp [Sys.init, Proc.init, Exists]
  once := by simp [Sys.init, Proc.init, Exists]
  root := by simp [Sys.init]
  askMsg := by simp [Sys.init]
  asksOk := by simp [Sys.init, Proc.init]
  asked := by simp [Sys.init, Proc.init]
  answered := by simp [Sys.init, Proc.init]
  sentOk := by simp [Sys.init, Proc.init]
  sentRoot := by simp [Sys.init, Proc.init]
  sentSmall := by simp [Sys.init, Proc.init]
  pend := by simp [Sys.init, Proc.init]
  missing := by simp [Sys.init, Proc.init]
  waitNodup := by simp [Sys.init]
  wait := by simp [Sys.init]

/-! ### Steps of the main process -/

theorem live_put {s s' : Sys} (hi : Inv s) (hl : Live s) (h : s.step .put = some s') : Live s' := by
  simp only [Sys.step] at h
  split at h
  · cases h
  · rename_i hw
    have hw : s.waiting = [] := Classical.not_not.1 hw
    cases h
    have hex : ∀ i, Exists { s with next := s.next + 1, held := s.next :: s.held, stored := s.next :: s.stored } i → i = s.next ∨ Exists s i := by
      rintro i (h | h | h)
      · exact Or.inr (Or.inl h)
      · rcases List.mem_cons.1 h with h | h
        · exact Or.inl h
        · exact Or.inr (Or.inr (Or.inl h))
      · exact Or.inr (Or.inr (Or.inr h))
    refine { hl with args := ?_, small := ?_, once := ?_, sentRoot := ?_, sentSmall := fun o i w h => Nat.lt_succ_of_lt (hl.sentSmall o i w h), wait := ?_ }
    · intro w t hu
      have := hl.args w t hu
      exact ⟨fun i hx => Nat.lt_succ_of_lt (this.1 i hx), this.2⟩
    · intro i hx
      rcases hex i hx with h | h
      · subst h; exact Nat.lt_succ_self _
      · exact Nat.lt_succ_of_lt (hl.small i h)
    · intro i hx w t hu
      rcases hex i hx with h | h
      · subst h
        intro hin
        have := hi.ownerFresh _ _ ((hi.taskOk w t hu).2 _ hin)
        omega
      · exact hl.once i h w t hu
    · intro o i hs hh
      rcases List.mem_cons.1 hh with h | h
      · exact Or.inl (h ▸ List.mem_cons_self)
      · rcases hl.sentRoot o i hs h with g | g
        · exact Or.inl (List.mem_cons_of_mem _ g)
        · exact Or.inr g
    · intro i hx
      have hx : i ∈ s.waiting := hx
      rw [hw] at hx; cases hx

theorem live_drop {s s' : Sys} {i : Nat} (hi : Inv s) (hl : Live s) (h : s.step (.drop i) = some s') : Live s' := by
  simp only [Sys.step] at h
  split at h
  · cases h
  · rename_i hc
    have hw : s.waiting = [] := Classical.not_not.1 fun h => hc (Or.inl h)
    cases h
    have hex : ∀ j, Exists { s with held := s.held.erase i, queue := s.queue ++ [i], stored := s.stored.filter (fun j => j ≠ i), sent := s.sent.filter (fun e => e.1 ≠ i) } j → Exists s j := by
      rintro j (h | h | h)
      · exact Or.inl h
      · exact Or.inr (Or.inl (List.mem_filter.1 h).1)
      · exact Or.inr (Or.inr h)
    refine { hl with small := fun j hx => hl.small j (hex j hx), once := fun j hx => hl.once j (hex j hx), sentRoot := ?_, wait := ?_ }
    · intro o j hs hh
      have hh := (hi.heldNodup.mem_erase_iff).1 hh
      rcases hl.sentRoot o j hs hh.2 with g | g
      · exact Or.inl (by simp [g, hh.1])
      · exact Or.inr g
    · intro j hx
      have hx : j ∈ s.waiting := hx
      rw [hw] at hx; cases hx

theorem live_report {s s' : Sys} (hl : Live s) (h : s.step .report = some s') : Live s' := by
  simp only [Sys.step] at h
  split at h
  · cases h
  · cases h
    exact { hl with }

theorem live_get {s s' : Sys} {ids : List Nat} (hi : Inv s) (hl : Live s) (hn : ids.Nodup) (h : s.step (.get ids) = some s') : Live s' := by
  simp only [Sys.step] at h
  split at h
  · cases h
  · rename_i hc
    simp only [ne_eq, not_or, Classical.not_not, List.any_eq_true, decide_eq_true_eq, not_exists, not_and] at hc
    obtain ⟨hw, hh⟩ := hc
    simp only [Option.some.injEq] at h
    generalize hfar : ids.filter (fun i => i ∉ s.stored) = far at h
    have hf : ∀ i ∈ far, i ∈ s.held ∧ i ∉ s.stored := by
      intro i hx
      rw [← hfar] at hx
      obtain ⟨h1, h2⟩ := List.mem_filter.1 hx
      exact ⟨hh i h1, by simpa using h2⟩
    have ho : ∀ i ∈ far, ∃ o, s.owner i = some o ∧ o ∈ s.ws := by
      intro i hx
      obtain ⟨h1, h2⟩ := hf i hx
      obtain ⟨o, ho⟩ := Option.ne_none_iff_exists'.1 ((hi.heldKnown i h1).resolve_left h2)
      exact ⟨o, ho, (hi.ownerFresh i o ho).2⟩
    subst h
    have hnew : ∀ x ∈ far.map (fun i => ((0, (s.owner i).getD 0, Msg.ask i 0) : Nat × Nat × Msg)), ∃ i ∈ far, ∃ o ∈ s.ws, s.owner i = some o ∧ x = (0, o, Msg.ask i 0) := by
      intro x hx
      obtain ⟨i, h1, rfl⟩ := List.mem_map.1 hx
      obtain ⟨o, h2, h3⟩ := ho i h1
      exact ⟨i, h1, o, h3, h2, by rw [h2]; rfl⟩
    have hasked : ∀ w o j, Asked s w o j → Asked { s with waiting := far, net := s.net ++ far.map (fun i => ((0, (s.owner i).getD 0, Msg.ask i 0) : Nat × Nat × Msg)) } w o j := by
      rintro w o j (h | h | h)
      · exact Or.inl (List.mem_append_left _ h)
      · exact Or.inr (Or.inl h)
      · exact Or.inr (Or.inr (List.mem_append_left _ h))
    have hex : ∀ j, Exists { s with waiting := far, net := s.net ++ far.map (fun i => ((0, (s.owner i).getD 0, Msg.ask i 0) : Nat × Nat × Msg)) } j → Exists s j := by
      rintro j (h | h | ⟨x, y, h⟩)
      · exact Or.inl h
      · exact Or.inr (Or.inl h)
      · rcases List.mem_append.1 h with h | h
        · exact Or.inr (Or.inr ⟨x, y, h⟩)
        · obtain ⟨i, -, o, -, -, e⟩ := hnew _ h
          cases e
    have hunf : ∀ w t, Unf { s with waiting := far, net := s.net ++ far.map (fun i => ((0, (s.owner i).getD 0, Msg.ask i 0) : Nat × Nat × Msg)) } w t → Unf s w t := by
      rintro w t (h | h)
      · rcases List.mem_append.1 h with h | h
        · exact Or.inl h
        · obtain ⟨i, -, o, -, -, e⟩ := hnew _ h
          cases e
      · exact Or.inr h
    refine { hl with order := ?_, args := fun w t hu => hl.args w t (hunf w t hu), small := fun j hx => hl.small j (hex j hx), once := fun j hx w t hu => hl.once j (hex j hx) w t (hunf w t hu), root := ?_, askMsg := ?_, answered := ?_, sentOk := ?_, sentRoot := ?_, waitNodup := ?_, wait := ?_ }
    · intro w
      show ((s.worker w).tasks ++ tasksOf (chan 0 w (s.net ++ _))).Pairwise Before
      rw [chan_append, tasksOf_append, tasksOf_none (c := chan 0 w (far.map _)), List.append_nil]
      · exact hl.order w
      · intro t ht
        obtain ⟨i, -, o, -, -, e⟩ := hnew _ (mem_chan.1 ht)
        cases e
    · intro x m hx
      rcases List.mem_append.1 hx with h | h
      · exact hl.root x m h
      · obtain ⟨i, -, o, hw, -, e⟩ := hnew _ h
        cases e
        exact absurd hw hi.zero
    · intro x y i z hx
      rcases List.mem_append.1 hx with h | h
      · exact hl.askMsg x y i z h
      · obtain ⟨j, -, o, hw, h2, e⟩ := hnew _ h
        cases e
        exact ⟨rfl, fun e => hi.zero (e ▸ hw), h2⟩
    · intro w j hj
      obtain ⟨o, h1, h2⟩ := hl.answered w j hj
      exact ⟨o, h1, hasked _ _ _ h2⟩
    · intro o i w hs h0 hc
      rcases hl.sentOk o i w hs h0 hc with h | h
      · exact Or.inl h
      · exact Or.inr (List.mem_append_left _ h)
    · intro o i hs hh
      rcases hl.sentRoot o i hs hh with h | h
      · exact Or.inl h
      · exact Or.inr (List.mem_append_left _ h)
    · show far.Nodup
      rw [← hfar]
      exact hn.filter _
    · intro i hx
      have hx : i ∈ far := hx
      obtain ⟨o, h2, -⟩ := ho i hx
      refine ⟨(hf i hx).1, (hf i hx).2, o, h2, Or.inl (List.mem_append_right _ ?_)⟩
      exact List.mem_map.2 ⟨i, hx, by rw [h2]; rfl⟩

theorem live_cleanAll {s : Sys} (hi : Inv s) (hl : Live s) : Live s.cleanAll := by
  · unfold Sys.cleanAll
    have hnew : ∀ x ∈ s.ws.map (fun w => ((0, w, Msg.clean s.queue) : Nat × Nat × Msg)), ∃ w ∈ s.ws, x = (0, w, Msg.clean s.queue) := by
      intro x hx
      obtain ⟨w, h1, rfl⟩ := List.mem_map.1 hx
      exact ⟨w, h1, rfl⟩
    have hasked : ∀ w o j, Asked s w o j → Asked { s with queue := [], cleaned := s.cleaned ++ s.queue, net := s.net ++ s.ws.map (fun w => ((0, w, Msg.clean s.queue) : Nat × Nat × Msg)) } w o j := by
      rintro w o j (h | h | h)
      · exact Or.inl (List.mem_append_left _ h)
      · exact Or.inr (Or.inl h)
      · exact Or.inr (Or.inr (List.mem_append_left _ h))
    have hex : ∀ j, Exists { s with queue := [], cleaned := s.cleaned ++ s.queue, net := s.net ++ s.ws.map (fun w => ((0, w, Msg.clean s.queue) : Nat × Nat × Msg)) } j → Exists s j := by
      rintro j (h | h | ⟨x, y, h⟩)
      · exact Or.inl h
      · exact Or.inr (Or.inl h)
      · rcases List.mem_append.1 h with h | h
        · exact Or.inr (Or.inr ⟨x, y, h⟩)
        · obtain ⟨i, -, e⟩ := hnew _ h
          cases e
    have hunf : ∀ w t, Unf { s with queue := [], cleaned := s.cleaned ++ s.queue, net := s.net ++ s.ws.map (fun w => ((0, w, Msg.clean s.queue) : Nat × Nat × Msg)) } w t → Unf s w t := by
      rintro w t (h | h)
      · rcases List.mem_append.1 h with h | h
        · exact Or.inl h
        · obtain ⟨i, -, e⟩ := hnew _ h
          cases e
      · exact Or.inr h
    refine { hl with order := ?_, args := fun w t hu => hl.args w t (hunf w t hu), small := fun j hx => hl.small j (hex j hx), once := fun j hx w t hu => hl.once j (hex j hx) w t (hunf w t hu), root := ?_, askMsg := ?_, asksOk := ?_, answered := ?_, sentOk := ?_, sentRoot := ?_, wait := ?_ }
    · intro w
      show ((s.worker w).tasks ++ tasksOf (chan 0 w (s.net ++ _))).Pairwise Before
      rw [chan_append, tasksOf_append, tasksOf_none (c := chan 0 w (s.ws.map _)), List.append_nil]
      · exact hl.order w
      · intro t ht
        obtain ⟨i, -, e⟩ := hnew _ (mem_chan.1 ht)
        cases e
    · intro x m hx
      rcases List.mem_append.1 hx with h | h
      · exact hl.root x m h
      · obtain ⟨w, hw, e⟩ := hnew _ h
        cases e
        exact absurd hw hi.zero
    · intro x y i z hx
      rcases List.mem_append.1 hx with h | h
      · exact hl.askMsg x y i z h
      · obtain ⟨w, hw, e⟩ := hnew _ h
        cases e
    · intro w a ha
      obtain ⟨h1, h2, h3⟩ := hl.asksOk w a ha
      exact ⟨h1, h2, h3.imp_left (fun h => List.mem_append_left _ h)⟩
    · intro w j hj
      obtain ⟨o, h1, h2⟩ := hl.answered w j hj
      exact ⟨o, h1, hasked _ _ _ h2⟩
    · intro o i w hs h0 hc
      rcases hl.sentOk o i w hs h0 (fun h => hc (List.mem_append_left _ h)) with h | h
      · exact Or.inl h
      · exact Or.inr (List.mem_append_left _ h)
    · intro o i hs hh
      rcases hl.sentRoot o i hs hh with h | h
      · exact Or.inl h
      · exact Or.inr (List.mem_append_left _ h)
    · intro i hx
      obtain ⟨h1, h2, o, h3, h4⟩ := hl.wait i hx
      exact ⟨h1, h2, o, h3, hasked _ _ _ h4⟩

theorem live_cleanup {s s' : Sys} (hi : Inv s) (hl : Live s) (h : s.step .cleanup = some s') : Live s' :=
  (cleanup_cleanAll h).1 ▸ live_cleanAll hi hl

theorem live_submit {s s' : Sys} {args : List Nat} {n d : Nat} (hi : Inv s) (hl : Live s) (h : s.step (.submit args n d false) = some s') : Live s' := by
  simp only [Sys.step] at h
  split at h
  · cases h
  · rename_i hc
    simp only [ne_eq, not_or, Classical.not_not, List.any_eq_true, decide_eq_true_eq, not_exists, not_and] at hc
    obtain ⟨hwait, hd, hargs⟩ := hc
    simp only [Bool.false_eq_true, if_false, Option.some.injEq] at h
    generalize houts : List.range' s.next n = outs at h
    have ho : ∀ i, i ∈ outs ↔ s.next ≤ i ∧ i < s.next + n := by intro i; rw [← houts, List.mem_range'_1]
    obtain ⟨L, sn, e, p1, p2, p3, p4⟩ := pushes_spec d args { s with next := s.next + n, held := outs ++ s.held, owner := fun i => if i ∈ outs then some d else s.owner i }
    rw [e] at h
    simp only at h p1 p2 p3 p4
    have hold : ∀ i, i < s.next → i ∉ outs := fun i hi h => by have := (ho i).1 h; omega
    have hargsN : ∀ i ∈ args, i < s.next := fun i h => hi.fresh i (Or.inl (hargs i h))
    have hown : ∀ i o, s.owner i = some o → (if i ∈ outs then some d else s.owner i) = some o := by
      intro i o h
      rw [if_neg (hold i (hi.ownerFresh i o h).1)]; exact h
    subst h
    have hL : ∀ x ∈ L, ∀ t, x.2.2 ≠ .task t := by
      intro x hx t ht
      rcases (p1 x hx).2.2 with ⟨i, -, -, k, -⟩ | ⟨i, -, o, -, -, k⟩ <;> rw [k] at ht <;> cases ht
    have hnet : ∀ x y m, (x, y, m) ∈ s.net ++ L ++ [(0, d, Msg.task ⟨args, outs, false⟩)] → (x, y, m) ∈ s.net ∨
        (x = 0 ∧ y = d ∧ ((∃ i, i ∈ s.stored ∧ m = .data i) ∨ (∃ i o, m = .owner i o) ∨ m = .task ⟨args, outs, false⟩)) := by
      intro x y m hx
      rcases List.mem_append.1 hx with h | h
      · rcases List.mem_append.1 h with h | h
        · exact Or.inl h
        · obtain ⟨k1, k2, k3⟩ := p1 _ h
          refine Or.inr ⟨k1, k2, ?_⟩
          rcases k3 with ⟨i, -, k, k', -⟩ | ⟨i, -, o, -, -, k⟩
          · exact Or.inl ⟨i, k, k'⟩
          · exact Or.inr (Or.inl ⟨i, o, k⟩)
      · have := List.mem_singleton.1 h
        cases this
        exact Or.inr ⟨rfl, rfl, Or.inr (Or.inr rfl)⟩
    have hmono : ∀ x, x ∈ s.net → x ∈ s.net ++ L ++ [(0, d, Msg.task ⟨args, outs, false⟩)] := fun x h => List.mem_append_left _ (List.mem_append_left _ h)
    have hunf : ∀ w t, ((0, w, Msg.task t) ∈ s.net ++ L ++ [(0, d, Msg.task ⟨args, outs, false⟩)] ∨ t ∈ (s.worker w).tasks) → Unf s w t ∨ (w = d ∧ t = ⟨args, outs, false⟩) := by
      rintro w t (h | h)
      · rcases hnet _ _ _ h with h | ⟨-, h2, ⟨i, -, k⟩ | ⟨i, o, k⟩ | k⟩
        · exact Or.inl (Or.inl h)
        · cases k
        · cases k
        · cases k; exact Or.inr ⟨h2, rfl⟩
      · exact Or.inl (Or.inr h)
    have hex : ∀ j, ((∃ w, j ∈ (s.worker w).data) ∨ j ∈ s.stored ∨ ∃ x y, (x, y, Msg.data j) ∈ s.net ++ L ++ [(0, d, Msg.task ⟨args, outs, false⟩)]) → Exists s j := by
      rintro j (h | h | ⟨x, y, h⟩)
      · exact Or.inl h
      · exact Or.inr (Or.inl h)
      · rcases hnet _ _ _ h with h | ⟨-, -, ⟨i, k', k⟩ | ⟨i, o, k⟩ | k⟩
        · exact Or.inr (Or.inr ⟨x, y, h⟩)
        · cases k; exact Or.inr (Or.inl k')
        · cases k
        · cases k
    refine { order := ?_, args := ?_, small := ?_, once := ?_, root := ?_, askMsg := ?_, asksOk := ?_, asked := ?_, answered := ?_, sentOk := ?_, sentRoot := ?_, sentSmall := fun o i w h => Nat.lt_of_lt_of_le (hl.sentSmall o i w h) (Nat.le_add_right _ _), pend := ?_, missing := hl.missing, waitNodup := hl.waitNodup, wait := ?_ }
    · intro w
      show ((s.worker w).tasks ++ tasksOf (chan 0 w (s.net ++ L ++ [(0, d, Msg.task ⟨args, outs, false⟩)]))).Pairwise Before
      rw [chan_append, chan_append, tasksOf_append, tasksOf_append, tasksOf_none (c := chan 0 w L) (fun t ht => hL _ (mem_chan.1 ht) t rfl), List.append_nil, ← List.append_assoc]
      by_cases hw : w = d
      · subst hw
        have e1 : tasksOf (chan 0 w [((0, w, Msg.task ⟨args, outs, false⟩) : Nat × Nat × Msg)]) = [⟨args, outs, false⟩] := by
          simp [chan, tasksOf]
        rw [e1]
        refine List.pairwise_append.2 ⟨hl.order w, List.pairwise_singleton _ _, ?_⟩
        intro t ht u hu
        rw [List.mem_singleton.1 hu]
        have hu : Unf s w t := by
          rcases List.mem_append.1 ht with h | h
          · exact Or.inr h
          · exact Or.inl (mem_chan.1 (mem_tasksOf.1 h))
        exact ⟨fun i hx => hold i ((hl.args w t hu).1 i hx), fun i hx => hold i (hi.ownerFresh _ _ ((hi.taskOk w t hu).2 i hx)).1⟩
      · rw [chan_none (l := [((0, d, Msg.task ⟨args, outs, false⟩) : Nat × Nat × Msg)])]
        · simpa [tasksOf] using hl.order w
        · intro x hx
          rw [List.mem_singleton.1 hx]
          exact fun g => hw g.2.symm
    · intro w t hu
      show (∀ i ∈ t.args, i < s.next + n) ∧ _
      rcases hunf w t hu with h | ⟨rfl, rfl⟩
      · have := hl.args w t h
        exact ⟨fun i hx => Nat.lt_of_lt_of_le (this.1 i hx) (Nat.le_add_right _ _), this.2⟩
      · refine ⟨fun i hx => Nat.lt_of_lt_of_le (hargsN i hx) (Nat.le_add_right _ _), fun i hx j hj => ?_⟩
        have := hargsN i hx
        have := (ho j).1 hj
        omega
    · intro j hx
      exact Nat.lt_of_lt_of_le (hl.small j (hex j hx)) (Nat.le_add_right _ _)
    · intro j hx w t hu
      have hx' := hex j hx
      rcases hunf w t hu with h | ⟨rfl, rfl⟩
      · exact hl.once j hx' w t h
      · exact hold j (hl.small j hx')
    · intro x m hx
      rcases hnet _ _ _ hx with h | ⟨-, h, -⟩
      · exact hl.root x m h
      · exact absurd (h ▸ hd) hi.zero
    · intro x y i z hx
      rcases hnet _ _ _ hx with h | ⟨-, -, ⟨i, k', k⟩ | ⟨i, o, k⟩ | k⟩
      · obtain ⟨h1, h2, h3⟩ := hl.askMsg x y i z h
        exact ⟨h1, h2, hown _ _ h3⟩
      · cases k
      · cases k
      · cases k
    · intro w a ha
      obtain ⟨h1, h2⟩ := hl.asksOk w a ha
      exact ⟨hown _ _ h1, h2⟩
    · intro w j hj
      obtain ⟨h1, h2, h3⟩ := hl.asked w j hj
      obtain ⟨o, h4, -⟩ := hl.answered w j hj
      refine ⟨h1, h2, ?_⟩
      show (if j ∈ outs then some d else s.owner j) ≠ some w
      rw [hown j o h4, ← h4]; exact h3
    · intro w j hj
      obtain ⟨o, h1, h2⟩ := hl.answered w j hj
      refine ⟨o, hown _ _ h1, ?_⟩
      rcases h2 with h | h | h
      · exact Or.inl (hmono _ h)
      · exact Or.inr (Or.inl h)
      · exact Or.inr (Or.inr (hmono _ h))
    · intro o i w hs h0 hc
      rcases hl.sentOk o i w hs h0 hc with h | h
      · exact Or.inl h
      · exact Or.inr (hmono _ h)
    · intro o i hs hh
      rcases List.mem_append.1 hh with h | h
      · exact absurd h (hold i (hl.sentSmall o i 0 hs))
      · rcases hl.sentRoot o i hs h with h | h
        · exact Or.inl h
        · exact Or.inr (hmono _ h)
    · intro w t ht
      obtain ⟨h1, h2⟩ := hl.pend w t ht
      refine ⟨h1, fun i hx => ?_⟩
      rcases h2 i hx with h | h
      · exact Or.inl h
      · exact Or.inr (hown _ _ h)
    · intro i hx
      have hx : i ∈ s.waiting := hx
      rw [hwait] at hx; cases hx


/-! ### Deliveries -/

theorem live_deliver_root {s s' : Sys} {src : Nat} (hi : Inv s) (hl : Live s) (h : s.step (.deliver src 0) = some s') : Live s' := by
  simp only [Sys.step] at h
  split at h
  · cases h
  · rename_i m rest hm
    obtain ⟨hmem, hsub, hcase⟩ := takeMsg_mem hm
    obtain ⟨i, rfl⟩ := hl.root _ _ hmem
    simp only [if_true, Option.some.injEq] at h
    generalize hst : (if i ∈ s.held then i :: s.stored else s.stored) = st at h
    have hmono : ∀ j ∈ s.stored, j ∈ st := by
      intro j hj
      rw [← hst]
      split
      · exact List.mem_cons_of_mem _ hj
      · exact hj
    have hnew : ∀ j ∈ st, j = i ∨ j ∈ s.stored := by
      intro j hj
      rw [← hst] at hj
      split at hj
      · exact List.mem_cons.1 hj
      · exact Or.inr hj
    subst h
    have hex : ∀ j, Exists { s with net := rest, stored := st, waiting := s.waiting.erase i } j → Exists s j := by
      rintro j (h | h | ⟨x, y, h⟩)
      · exact Or.inl h
      · rcases hnew j h with h | h
        · subst h; exact Or.inr (Or.inr ⟨_, _, hmem⟩)
        · exact Or.inr (Or.inl h)
      · exact Or.inr (Or.inr ⟨x, y, hsub _ h⟩)
    have hunf : ∀ w t, Unf { s with net := rest, stored := st, waiting := s.waiting.erase i } w t → Unf s w t := by
      rintro w t (h | h)
      · exact Or.inl (hsub _ h)
      · exact Or.inr h
    have hkeep : ∀ x y m, (x, y, m) ∈ s.net → (y ≠ 0 ∨ m ≠ .data i) → (x, y, m) ∈ rest := by
      intro x y m hx hne
      rcases hcase _ hx with e | e
      · cases e
        rcases hne with h | h <;> exact absurd rfl h
      · exact e
    have hasked : ∀ w o j, s.owner j = some o → (w ≠ 0 ∨ j ≠ i) → Asked s w o j → Asked { s with net := rest, stored := st, waiting := s.waiting.erase i } w o j := by
      intro w o j ho hne hx
      have h0 : o ≠ 0 := fun e => hi.zero (e ▸ (hi.ownerFresh j o ho).2)
      rcases hx with h | h | h
      · exact Or.inl (hkeep _ _ _ h (Or.inl h0))
      · exact Or.inr (Or.inl h)
      · refine Or.inr (Or.inr (hkeep _ _ _ h ?_))
        rcases hne with h | h
        · exact Or.inl h
        · exact Or.inr (fun e => h (by cases e; rfl))
    have hw0 : ∀ w, (s.worker w).asked ≠ [] → w ≠ 0 := by
      intro w hne e
      obtain ⟨j, hj⟩ := List.exists_mem_of_ne_nil _ hne
      obtain ⟨-, ⟨t, ht, -⟩, -⟩ := hl.asked w j hj
      exact hi.zero (e ▸ hi.pendWs w t ht)
    refine { hl with order := ?_, args := fun w t hu => hl.args w t (hunf w t hu), small := fun j hx => hl.small j (hex j hx), once := fun j hx w t hu => hl.once j (hex j hx) w t (hunf w t hu), root := fun x m hx => hl.root x m (hsub _ hx), askMsg := fun x y j z hx => hl.askMsg x y j z (hsub _ hx), answered := ?_, sentOk := ?_, sentRoot := ?_, waitNodup := ?_, wait := ?_ }
    · intro w
      show ((s.worker w).tasks ++ tasksOf (chan 0 w rest)).Pairwise Before
      by_cases hw : src = 0 ∧ 0 = w
      · obtain ⟨rfl, rfl⟩ := hw
        have := hl.order 0
        rw [takeMsg_chan hm] at this
        simpa [tasksOf] using this
      · rw [takeMsg_other hm hw]
        exact hl.order w
    · intro w j hj
      obtain ⟨o, h1, h2⟩ := hl.answered w j hj
      exact ⟨o, h1, hasked _ _ _ h1 (Or.inl (hw0 w (List.ne_nil_of_mem hj))) h2⟩
    · intro o j w hs h0 hc
      rcases hl.sentOk o j w hs h0 hc with h | h
      · exact Or.inl h
      · exact Or.inr (hkeep _ _ _ h (Or.inl h0))
    · intro o j hs hh
      rcases hl.sentRoot o j hs hh with h | h
      · exact Or.inl (hmono j h)
      · by_cases hj : j = i
        · subst hj
          left
          show j ∈ st
          have hh : j ∈ s.held := hh
          rw [← hst, if_pos hh]
          exact List.mem_cons_self
        · exact Or.inr (hkeep _ _ _ h (Or.inr (fun e => hj (by cases e; rfl))))
    · exact hl.waitNodup.erase _
    · intro j hx
      have hx := (hl.waitNodup.mem_erase_iff).1 hx
      obtain ⟨h1, h2, o, h3, h4⟩ := hl.wait j hx.2
      refine ⟨h1, ?_, o, h3, hasked _ _ _ h3 (Or.inr hx.1) h4⟩
      intro h
      rcases hnew j h with h | h
      · exact hx.1 h
      · exact h2 h

theorem order_take {s : Sys} {src d : Nat} {m : Msg} {rest : List (Nat × Nat × Msg)} (hi : Inv s) (hl : Live s)
    (hm : takeMsg src d s.net = some (m, rest)) : (inOrder (s.worker d) m ++ tasksOf (chan 0 d rest)).Pairwise Before := by
  have ho := hl.order d
  by_cases h0 : src = 0
  · subst h0
    rw [takeMsg_chan hm] at ho
    cases m with
    | task t =>
      have e : tasksOf (Msg.task t :: chan 0 d rest) = [t] ++ tasksOf (chan 0 d rest) := by simp [tasksOf]
      rw [e, ← List.append_assoc] at ho
      exact ho
    | _ => exact ho
  · rw [← takeMsg_other hm (fun g => h0 g.1)] at ho
    cases m with
    | task t => exact absurd (hi.taskMsg _ _ _ (takeMsg_mem hm).1).1 h0
    | _ => exact ho

set_option maxHeartbeats 1600000 in
theorem live_deliver {s s' : Sys} {src d : Nat} (hd : d ≠ 0) (hi : Inv s) (hl : Live s) (h : s.step (.deliver src d) = some s') : Live s' := by
  obtain ⟨m, rest, hm, rfl⟩ := deliver_cases hd h
  clear h
  obtain ⟨hmem, hsub, hcase⟩ := takeMsg_mem hm
  have r := inv_recv hi hm
  have q := receive_quiet d (s.worker d) m
  have htodo := todo_unf hi hm
  have hmeth : ∀ t, m = .task t → t.method = false := by
    intro t ht
    subst ht
    exact (hi.taskMsg _ _ _ hmem).2.2
  have r2 := receive_recv2 s.owner d (s.worker d) m (hi.idle d).1 hmeth (todo_ready hi hm) (fun t ht j hj => (hi.taskOk d t (htodo t ht)).2 j hj) (hi.ownersTrue d)
  have r3 := receive_recv3 s.owner d (s.worker d) m (hi.idle d).1 hmeth (todo_ready hi hm) (hi.ownersTrue d)
  have hob := (hi.idle d).2.2.1
  have hord := order_take hi hl hm
  generalize hp : (s.worker d).receive d m = p at r q r2 r3
  have hpend := r3.left (hl.pend d)
  have hin : ∀ t, t ∈ inOrder (s.worker d) m ↔ t ∈ todo (s.worker d) m := by
    intro t
    cases m <;> simp [inOrder, todo, or_comm]
  have hdat : ∀ i, m = .data i → Exists s i := by
    rintro i rfl
    exact Or.inr (Or.inr ⟨_, _, hmem⟩)
  have hsep := r3.sep (List.pairwise_append.1 hord).1 (by
    intro t ht i hx
    have hu := htodo t ((hin t).1 ht)
    refine ⟨fun h => hl.once i (Or.inl ⟨d, h⟩) d t hu hx, fun h => hl.once i (hdat i h) d t hu hx⟩) (hl.missing d)
  have hout : ∀ y m', (y, m') ∈ p.outbox → (∃ i, m' = .data i ∧ i ∈ p.data) ∨ (∃ j, m' = .ask j d ∧ y ≠ d ∧ s.owner j = some y) := by
    intro y m' hx
    rcases q _ hx with h | ⟨i, h⟩ | ⟨i, j, h⟩
    · rw [hob] at h; cases h
    · have h : m' = .data i := h
      subst h
      rcases r3.outData y i hx with h | h
      · rw [hob] at h; cases h
      · exact Or.inl ⟨i, rfl, h⟩
    · have h : m' = .ask i j := h
      subst h
      rcases r2.reqOwn y i j hx with h | ⟨h1, h2, h3⟩
      · rw [hob] at h; cases h
      · subst h1
        exact Or.inr ⟨i, rfl, h2, hi.ownersTrue _ _ h3⟩
  have hW : ∀ w, (({ s with net := rest }.setWorker d p).worker w) = if w = d then { p.sweep with outbox := [], done := 0 } else s.worker w := fun w => rfl
  have hN : ({ s with net := rest }.setWorker d p).net = rest ++ p.outbox.map (fun y => ((d, y.1, y.2) : Nat × Nat × Msg)) := rfl
  have hWd : ({ s with net := rest }.setWorker d p).worker d = { p.sweep with outbox := [], done := 0 } := if_pos rfl
  have hWo : ∀ w, w ≠ d → ({ s with net := rest }.setWorker d p).worker w = s.worker w := fun w hw => if_neg hw
  have hmsg : ∀ x y m', (x, y, m') ∈ ({ s with net := rest }.setWorker d p).net → (x, y, m') ∈ s.net ∨ (x = d ∧ (y, m') ∈ p.outbox) := by
    intro x y m' hx
    rw [hN] at hx
    rcases List.mem_append.1 hx with h | h
    · exact Or.inl (hsub _ h)
    · obtain ⟨z, hz, e⟩ := List.mem_map.1 h
      cases e
      exact Or.inr ⟨rfl, hz⟩
  have hsend : ∀ y m', (y, m') ∈ p.outbox → (d, y, m') ∈ ({ s with net := rest }.setWorker d p).net := by
    intro y m' hx
    rw [hN]
    exact List.mem_append_right _ (List.mem_map.2 ⟨_, hx, rfl⟩)
  have hkeep : ∀ x y m', (x, y, m') ∈ s.net → (y ≠ d ∨ m' ≠ m) → (x, y, m') ∈ ({ s with net := rest }.setWorker d p).net := by
    intro x y m' hx hne
    rw [hN]
    refine List.mem_append_left _ ?_
    rcases hcase _ hx with e | e
    · cases e
      rcases hne with h | h <;> exact absurd rfl h
    · exact e
  have hdata : ∀ i, i ∈ (({ s with net := rest }.setWorker d p).worker d).data → i ∈ p.data := by
    intro i hx
    rw [hWd] at hx
    exact (List.mem_filter.1 hx).1
  have hTd : (({ s with net := rest }.setWorker d p).worker d).tasks = p.tasks := by rw [hWd]; rfl
  have hchan : ∀ w, chan 0 w ({ s with net := rest }.setWorker d p).net = chan 0 w rest := by
    intro w
    rw [hN, chan_append, chan_none (l := p.outbox.map _), List.append_nil]
    intro x hx g
    obtain ⟨z, hz, rfl⟩ := List.mem_map.1 hx
    exact hd g.1
  have hunf : ∀ w t', Unf ({ s with net := rest }.setWorker d p) w t' → ∃ t, Unf s w t ∧ t'.outs = t.outs ∧ ∀ i ∈ t'.args, i ∈ t.args := by
    intro w t' hu
    rcases hu with h | h
    · rcases hmsg _ _ _ h with h | ⟨h, -⟩
      · exact ⟨t', Or.inl h, rfl, fun _ h => h⟩
      · exact absurd h.symm hd
    · by_cases hw : w = d
      · subst hw
        rw [hTd] at h
        obtain ⟨t, ht, e1, -, e3⟩ := r.left t' h
        exact ⟨t, htodo t ht, e1, e3⟩
      · rw [hWo w hw] at h
        exact ⟨t', Or.inr h, rfl, fun _ h => h⟩
  -- values that exist afterwards
  have hexD : ∀ i ∈ p.data, Exists s i ∨ ∃ t ∈ inOrder (s.worker d) m, i ∈ t.outs := by
    intro i hx
    rcases r.new i hx with h | h | ⟨t, ht, hx⟩
    · exact Or.inl (Or.inl ⟨d, h⟩)
    · exact Or.inl (hdat i h)
    · exact Or.inr ⟨t, (hin t).2 ht, hx⟩
  have hex : ∀ i, Exists ({ s with net := rest }.setWorker d p) i → Exists s i ∨ i ∈ p.data := by
    rintro i (⟨w, h⟩ | h | ⟨x, y, h⟩)
    · by_cases hw : w = d
      · subst hw; exact Or.inr (hdata i h)
      · rw [hWo w hw] at h; exact Or.inl (Or.inl ⟨w, h⟩)
    · exact Or.inl (Or.inr (Or.inl h))
    · rcases hmsg _ _ _ h with h | ⟨-, h⟩
      · exact Or.inl (Or.inr (Or.inr ⟨x, y, h⟩))
      · rcases hout _ _ h with ⟨j, e, hj⟩ | ⟨j, e, -⟩
        · cases e; exact Or.inr hj
        · cases e
  have hsmallD : ∀ i ∈ p.data, i < s.next := by
    intro i hx
    rcases hexD i hx with h | ⟨t, ht, hx⟩
    · exact hl.small i h
    · exact (hi.ownerFresh _ _ ((hi.taskOk d t (htodo t ((hin t).1 ht))).2 i hx)).1
  have hw0 : ∀ w, (s.worker w).asked ≠ [] → w ≠ 0 := by
    intro w hne e
    obtain ⟨j, hj⟩ := List.exists_mem_of_ne_nil _ hne
    obtain ⟨-, ⟨t, ht, -⟩, -⟩ := hl.asked w j hj
    exact hi.zero (e ▸ hi.pendWs w t ht)
  have hsentD : ∀ i w, (i, w) ∈ (({ s with net := rest }.setWorker d p).worker d).sent → (i, w) ∈ (s.worker d).sent ∨ (w, Msg.data i) ∈ p.outbox := by
    intro i w hx
    rw [hWd] at hx
    exact r3.sent _ (List.mem_filter.1 hx).1
  -- a request of another process is still there
  have hasked : ∀ w o j, w ≠ d → s.owner j = some o → ((j, w) ∈ (s.worker d).sent → o = d → (d, w, Msg.data j) ∈ s.net) → Asked s w o j →
      Asked ({ s with net := rest }.setWorker d p) w o j := by
    intro w o j hw ho hs hx
    by_cases hod : o = d
    · subst hod
      have hAsks : ∀ a, a ∈ p.asks → a ∈ (({ s with net := rest }.setWorker o p).worker o).asks := by
        intro a ha; rw [hWd]; exact ha
      have fin : ((j, w) ∈ p.asks ∨ (w, Msg.data j) ∈ p.outbox ∨ (j, w) ∈ (s.worker o).sent) → Asked ({ s with net := rest }.setWorker o p) w o j := by
        rintro (h | h | h)
        · exact Or.inr (Or.inl (hAsks _ h))
        · exact Or.inr (Or.inr (hsend _ _ h))
        · exact Or.inr (Or.inr (hkeep _ _ _ (hs h rfl) (Or.inl hw)))
      rcases hx with h | h | h
      · by_cases he : m = .ask j w
        · exact fin (r3.got j w he)
        · exact Or.inl (hkeep _ _ _ h (Or.inr (fun e => he e.symm)))
      · exact fin (r3.asks _ h)
      · exact Or.inr (Or.inr (hkeep _ _ _ h (Or.inl hw)))
    · rcases hx with h | h | h
      · exact Or.inl (hkeep _ _ _ h (Or.inl hod))
      · exact Or.inr (Or.inl (by rw [hWo o hod]; exact h))
      · exact Or.inr (Or.inr (hkeep _ _ _ h (Or.inl hw)))
  refine { order := ?_, args := ?_, small := ?_, once := ?_, root := ?_, askMsg := ?_, asksOk := ?_, asked := ?_, answered := ?_, sentOk := ?_, sentRoot := ?_, sentSmall := ?_, pend := ?_, missing := ?_, waitNodup := hl.waitNodup, wait := ?_ }
  · intro w
    rw [hchan]
    by_cases hw : w = d
    · subst hw
      rw [hTd]
      exact (r3.shrunk.append (Shrunk.refl _)).pairwise hord
    · rw [hWo w hw, takeMsg_other hm (fun g => hw g.2.symm)]
      exact hl.order w
  · intro w t' hu
    obtain ⟨t, h1, h2, h3⟩ := hunf w t' hu
    have := hl.args w t h1
    exact ⟨fun i hx => this.1 i (h3 i hx), fun i hx j hj => this.2 i (h3 i hx) j (h2 ▸ hj)⟩
  · intro i hx
    rcases hex i hx with h | h
    · exact hl.small i h
    · exact hsmallD i h
  · intro i hx w t' hu hin'
    have key : ¬ Exists s i := by
      intro h
      obtain ⟨t, h1, h2, -⟩ := hunf w t' hu
      exact hl.once i h w t h1 (h2 ▸ hin')
    have hpd : i ∈ p.data := (hex i hx).resolve_left key
    obtain ⟨t, ht, hti⟩ := (hexD i hpd).resolve_left key
    have how := ((hi.taskOk d t (htodo t ((hin t).1 ht))).2 i hti)
    have hwd : w = d := by
      obtain ⟨u, h1, h2, -⟩ := hunf w t' hu
      have := ((hi.taskOk w u h1).2 i (h2 ▸ hin'))
      rw [how] at this
      cases this; rfl
    subst hwd
    rcases hu with h | h
    · have h : Msg.task t' ∈ chan 0 w rest := by rw [← hchan]; exact mem_chan.2 h
      exact ((List.pairwise_append.1 hord).2.2 t ht t' (mem_tasksOf.2 h)).2 i hti hin'
    · rw [hTd] at h
      exact (hsep t' h).1 i hin' hpd
  · intro x m' hx
    rcases hmsg _ _ _ hx with h | ⟨-, h⟩
    · exact hl.root x m' h
    · rcases hout _ _ h with ⟨j, e, -⟩ | ⟨j, e, -, ho⟩
      · exact ⟨j, e⟩
      · exact absurd (hi.ownerFresh _ _ ho).2 hi.zero
  · intro x y i z hx
    rcases hmsg _ _ _ hx with h | ⟨rfl, h⟩
    · exact hl.askMsg x y i z h
    · rcases hout _ _ h with ⟨j, e, -⟩ | ⟨j, e, h1, ho⟩
      · cases e
      · cases e
        exact ⟨rfl, fun g => h1 g.symm, ho⟩
  · intro w a ha
    by_cases hw : w = d
    · subst hw
      have ha : a ∈ p.asks := by rw [hWd] at ha; exact ha
      rcases r3.fresh a ha with ⟨h1, h2⟩ | ⟨h1, h2⟩
      · obtain ⟨k1, k2, k3⟩ := hl.asksOk w a h1
        refine ⟨k1, k2, ?_⟩
        by_cases hc : a.1 ∈ s.cleaned
        · exact Or.inl hc
        · refine Or.inr fun hx => ?_
          have hn := k3.resolve_left hc
          rcases h2 (hdata _ hx) with h | h
          · exact hn h
          · rcases hi.home _ _ k1 hc with g | ⟨t, ht, hti⟩
            · exact hn g.2
            · exact hl.once _ (hdat _ h) w t ht hti
      · subst h1
        obtain ⟨k1, k2, k3⟩ := hl.askMsg _ _ _ _ hmem
        exact ⟨k3, fun e => k2 (k1.symm.trans e), Or.inr fun hx => h2 (hdata _ hx)⟩
    · rw [hWo w hw] at ha ⊢
      exact hl.asksOk w a ha
  · intro w j hj
    by_cases hw : w = d
    · subst hw
      have hj : j ∈ p.asked := by rw [hWd] at hj; exact hj
      obtain ⟨h1, h2, h3⟩ := r2.pend (hl.asked w) j hj
      exact ⟨fun hx => h1 (hdata _ hx), by rw [hTd]; exact h2, h3⟩
    · rw [hWo w hw] at hj ⊢
      exact hl.asked w j hj
  · intro w j hj
    by_cases hw : w = d
    · subst hw
      have hj : j ∈ p.asked := by rw [hWd] at hj; exact hj
      rcases r3.req j hj with ⟨h1, h2⟩ | ⟨o, h1, h2⟩
      · obtain ⟨o, k1, k2⟩ := hl.answered w j h1
        have how : o ≠ w := fun e => (hl.asked w j h1).2.2 (e ▸ k1)
        refine ⟨o, k1, ?_⟩
        rcases k2 with h | h | h
        · exact Or.inl (hkeep _ _ _ h (Or.inl how))
        · exact Or.inr (Or.inl (by rw [hWo o how]; exact h))
        · exact Or.inr (Or.inr (hkeep _ _ _ h (Or.inr (fun e => h2 e.symm))))
      · exact ⟨o, hi.ownersTrue w _ h1, Or.inl (hsend _ _ h2)⟩
    · rw [hWo w hw] at hj
      obtain ⟨o, k1, k2⟩ := hl.answered w j hj
      refine ⟨o, k1, hasked w o j hw k1 ?_ k2⟩
      intro hs _
      obtain ⟨h1, ⟨t, ht, hta⟩, h3⟩ := hl.asked w j hj
      rcases hl.sentOk d j w hs (hw0 w (List.ne_nil_of_mem hj)) ((hi.taskOk w t (Or.inr ht)).1 j hta) with g | g
      · exact absurd g.2 h1
      · exact g
  · intro o i w hs h0 hc
    have old : (i, w) ∈ (s.worker o).sent → (i ∈ (({ s with net := rest }.setWorker d p).worker w).strong ∧ i ∈ (({ s with net := rest }.setWorker d p).worker w).data) ∨ (o, w, Msg.data i) ∈ ({ s with net := rest }.setWorker d p).net := by
      intro hs
      rcases hl.sentOk o i w hs h0 hc with ⟨h1, h2⟩ | h
      · left
        by_cases hw : w = d
        · subst hw
          have h3 : i ∈ p.strong := by
            refine r.strong i h1 ?_
            rintro ids rfl hin
            exact hc ((hi.cleanMsg _ _ _ hmem).2 i hin)
          rw [hWd]
          exact ⟨h3, sweep_data p i h3 (r.data i h2)⟩
        · rw [hWo w hw]; exact ⟨h1, h2⟩
      · by_cases hw : w = d
        · subst hw
          by_cases he : m = .data i
          · have g := r.got i he
            left
            rw [hWd]
            exact ⟨g.2, sweep_data p i g.2 g.1⟩
          · exact Or.inr (hkeep _ _ _ h (Or.inr (fun e => he e.symm)))
        · exact Or.inr (hkeep _ _ _ h (Or.inl hw))
    by_cases hod : o = d
    · subst hod
      rcases hsentD i w hs with h | h
      · exact old h
      · exact Or.inr (hsend _ _ h)
    · rw [hWo o hod] at hs
      exact old hs
  · intro o i hs hh
    have old : (i, 0) ∈ (s.worker o).sent → i ∈ s.stored ∨ (o, 0, Msg.data i) ∈ ({ s with net := rest }.setWorker d p).net := by
      intro hs
      rcases hl.sentRoot o i hs hh with h | h
      · exact Or.inl h
      · exact Or.inr (hkeep _ _ _ h (Or.inl (fun e => hd e.symm)))
    by_cases hod : o = d
    · subst hod
      rcases hsentD i 0 hs with h | h
      · exact old h
      · exact Or.inr (hsend _ _ h)
    · rw [hWo o hod] at hs
      exact old hs
  · intro o i w hs
    by_cases hod : o = d
    · subst hod
      rcases hsentD i w hs with h | h
      · exact hl.sentSmall o i w h
      · rcases hout _ _ h with ⟨j, e, hj⟩ | ⟨j, e, -⟩
        · cases e; exact hsmallD _ hj
        · cases e
    · rw [hWo o hod] at hs
      exact hl.sentSmall o i w hs
  · intro w t ht
    by_cases hw : w = d
    · subst hw
      rw [hTd] at ht
      have := hpend t ht
      rw [hWd]
      exact this
    · rw [hWo w hw] at ht ⊢
      exact hl.pend w t ht
  · intro w t ht i hx
    by_cases hw : w = d
    · subst hw
      rw [hTd] at ht
      exact fun h => (hsep t ht).2 i hx (hdata i h)
    · rw [hWo w hw] at ht ⊢
      exact hl.missing w t ht i hx
  · intro i hx
    obtain ⟨h1, h2, o, h3, h4⟩ := hl.wait i hx
    refine ⟨h1, h2, o, h3, hasked 0 o i (fun e => hd e.symm) h3 ?_ h4⟩
    intro hs _
    rcases hl.sentRoot d i hs h1 with g | g
    · exact absurd g h2
    · exact g

/-! ### Whole histories -/

theorem live_step {s s' : Sys} {op : Op} (hi : Inv s) (hl : Live s) (ho : ∀ args n d, op ≠ .submit args n d true)
    (hg : ∀ ids, op = .get ids → ids.Nodup) (h : s.step op = some s') : Live s' := by
  cases op with
  | put => exact live_put hi hl h
  | drop i => exact live_drop hi hl h
  | submit args n d m =>
    cases m with
    | false => exact live_submit hi hl h
    | true => exact absurd rfl (ho args n d)
  | get ids => exact live_get hi hl (hg ids rfl) h
  | deliver src d =>
    by_cases hd : d = 0
    · subst hd; exact live_deliver_root hi hl h
    · exact live_deliver hd hi hl h
  | report => exact live_report hl h
  | cleanup => exact live_cleanup hi hl h

theorem live_run (ops : List Op) {s s' : Sys} (hi : Inv s) (hl : Live s) (ho : NoMethods ops) (hg : GetsOnce ops)
    (h : s.run ops = some s') : Inv s' ∧ Live s' := by
  induction ops generalizing s with
  | nil => cases h; exact ⟨hi, hl⟩
  | cons op ops ih =>
    simp only [Sys.run, Option.bind_eq_some_iff] at h
    obtain ⟨s1, h1, h2⟩ := h
    have hm : ∀ args n d, op ≠ .submit args n d true := by
      rintro a n d rfl
      exact ho a n d List.mem_cons_self
    have hm' : ∀ ids, op = .get ids → ids.Nodup := by
      rintro ids rfl
      exact hg ids List.mem_cons_self
    exact ih (inv_step hi hm h1) (live_step hi hl hm hm' h1) (fun a n d hx => ho a n d (List.mem_cons_of_mem _ hx)) (fun ids hx => hg ids (List.mem_cons_of_mem _ hx)) h2

/-- Without messages nothing is held back and no `get` waits. -/
theorem live_quiet {s : Sys} (hi : Inv s) (hl : Live s) (hn : s.net = []) : (∀ w, (s.worker w).tasks = []) ∧ s.waiting = [] := by
  -- a value a worker was asked for is the output of a task it holds back
  have hprod : ∀ o i w, (i, w) ∈ (s.worker o).asks → i ∉ s.cleaned → ∃ t ∈ (s.worker o).tasks, i ∈ t.outs := by
    intro o i w ha hc
    obtain ⟨h1, -, h3⟩ := hl.asksOk o _ ha
    rcases hi.home i o h1 hc with g | ⟨t, ht | ht, hx⟩
    · exact absurd g.2 (h3.resolve_left hc)
    · rw [hn] at ht; cases ht
    · exact ⟨t, ht, hx⟩
  have hno : ∀ n i, i < n → ∀ w, ∀ t ∈ (s.worker w).tasks, ∀ k ∈ t.args, k ≠ i := by
    intro n
    induction n with
    | zero => intro i h; omega
    | succ n ih =>
      intro i hin w t ht k hk e
      subst e
      have hc := (hi.taskOk w t (Or.inr ht)).1 k hk
      -- the task that makes `k` is held back and misses an earlier reference
      have hex : ∃ o u, u ∈ (s.worker o).tasks ∧ k ∈ u.outs := by
        rcases (hl.pend w t ht).2 k hk with h | h
        · obtain ⟨o, -, h2⟩ := hl.answered w k h
          rcases h2 with h | h | h
          · rw [hn] at h; cases h
          · obtain ⟨u, h1, h2⟩ := hprod o k w h hc
            exact ⟨o, u, h1, h2⟩
          · rw [hn] at h; cases h
        · rcases hi.home k w h hc with g | ⟨u, hu | hu, hx⟩
          · exact absurd g.2 (hl.missing w t ht k hk)
          · rw [hn] at hu; cases hu
          · exact ⟨w, u, hu, hx⟩
      obtain ⟨o, u, hu, hku⟩ := hex
      obtain ⟨a, ha⟩ := List.exists_mem_of_ne_nil _ (hl.pend o u hu).1
      have := (hl.args o u (Or.inr hu)).2 a ha k hku
      exact ih a (by omega) o u hu a ha rfl
  have ht : ∀ w, (s.worker w).tasks = [] := by
    intro w
    apply List.eq_nil_iff_forall_not_mem.2
    intro t ht
    obtain ⟨a, ha⟩ := List.exists_mem_of_ne_nil _ (hl.pend w t ht).1
    exact hno (a + 1) a (Nat.lt_succ_self a) w t ht a ha rfl
  refine ⟨ht, ?_⟩
  apply List.eq_nil_iff_forall_not_mem.2
  intro i hx
  obtain ⟨h1, -, o, -, h4⟩ := hl.wait i hx
  rcases h4 with h | h | h
  · rw [hn] at h; cases h
  · obtain ⟨u, h2, -⟩ := hprod o i 0 h (hi.gone i h1).2
    rw [ht] at h2; cases h2
  · rw [hn] at h; cases h

end Verif.Lifetime

import Verif.Lemmas.ClusterLive
import Verif.Props.ClusterGet
import Verif.Props.Worker

/-! Progress of the main process and the workers (C81, and what holds of C34 and C38 in a cluster). -/
namespace Verif.Cluster
open Verif.Spec
open Verif.Worker

variable {W : World} {isW : Nat → Bool} {m : Nat} {acts : List Act} {c : Cluster}

theorem submit_of_call {fn : Nat} {args : List Val} {outs : List Nat} : ∀ (acts : List Act) (n : Nat),
    Call.submit fn args outs ∈ callsOf n acts → ∃ k d, Act.submit fn args k d ∈ acts ∧ outs.length = k
  | [], n, h => by simp [callsOf] at h
  | a :: t, n, h => by
    simp only [callsOf, List.mem_append] at h
    rcases h with h | h
    · cases a with
      | submit f as k d =>
        simp only [callOf, List.mem_singleton, Call.submit.injEq] at h
        obtain ⟨rfl, rfl, rfl⟩ := h
        exact ⟨k, d, by simp, by simp⟩
      | put v => simp [callOf] at h
      | _ => simp [callOf] at h
    · obtain ⟨k, d, h1, h2⟩ := submit_of_call t _ h
      exact ⟨k, d, List.mem_cons_of_mem _ h1, h2⟩

theorem run_live (hcode : ∀ f args v, refsList args = [] → W.call f args = .ret v → refs v = [])
    (hput : ∀ v, Act.put v ∈ acts → refs v = []) (h0 : isW 0 = false) (hm : m ≠ 0)
    (hrun : (Cluster.init m).run W isW acts = some c)
    (hsync : ∀ fn args n d, Act.submit fn args n d ∈ acts → ∀ f, meaning W (callsOf 0 acts) fn = some (.code f) → W.isAsync f = false) :
    ∃ H subs, Inv W isW m c (callsOf 0 acts) subs ∧ Live (ctx W m c (callsOf 0 acts) subs) isW c H ∧ MadeBy W (callsOf 0 acts) := by
  refine live_run hcode h0 hm ?_ acts (inv_init W isW m) (live_init _ isW m) ?_
    (fun a ha => by cases a <;> first | exact hput _ ha | trivial) rfl hrun
  · intro fn args outs hc f hf
    obtain ⟨k, d, hk, -⟩ := submit_of_call acts 0 hc
    exact hsync fn args k d hk f hf
  · intro fn args outs h
    simp at h

theorem chan_of_deliver {s d : Nat} (hd : isW d = true) (h : c.step W isW (.deliver s d) = none) : c.chan s d = [] := by
  simp only [Cluster.step, hd, if_true] at h
  split at h
  · rename_i he; exact he
  · split at h <;> simp at h

end Verif.Cluster

namespace Verif.Props
open Verif.Cluster Verif.Spec
open Verif.Worker (Val Ret World Request Task Msg Crash Worker)

/-! ## C81 Programs of remote function calls do not hang -/

/-- When no message can be received and no coroutine runs any more, the main process does not wait and every task was
executed. -/
def C81_full : Prop := ∀ (W : World) (isW : Nat → Bool) (m : Nat) (acts : List Act) (c : Cluster),
  (∀ f args v, refsList args = [] → W.call f args = .ret v → refs v = []) → (∀ v, Act.put v ∈ acts → refs v = []) →
  isW 0 = false → m ≠ 0 → (∀ ids, Act.get ids ∈ acts → ids.Nodup) → (Cluster.init m).run W isW acts = some c →
  (∀ s d, c.step W isW (.deliver s d) = none) → (∀ s, c.step W isW (.reply s) = none) →
  (∀ d i, c.step W isW (.complete d i) = none) →
  c.root.waiting = none ∧ ∀ t, t < (submits (callsOf 0 acts)).length → ∃ d, isW d = true ∧ ∃ r ∈ (c.worker d).log, r.tag = t

/-- User code with a coroutine function 9; the others add one. -/
def exAsync : World where
  call
    | 9, [] => .ret (.data 4)
    | 0, [.data a] => .ret (.data (a + 1))
    | _, _ => .raise 5
  method _ s _ := (s, .ret s)
  isAsync c := c == 9

/-- `x = f.remote()` with a coroutine function, `y = g.remote(x)`, `get(y)`; both tasks in worker 2. -/
def exHang : List Act :=
  [.put (.code 9), .put (.code 0), .submit 0 [] 1 2, .submit 1 [.ref 2] 1 2, .get [3], .deliver 0 2, .deliver 0 2, .deliver 0 2,
   .deliver 0 2, .deliver 0 2, .deliver 0 2, .complete 2 0]

theorem exAsync_plain : ∀ f args v, refsList args = [] → exAsync.call f args = .ret v → refs v = [] := by
  intro f args v _ h
  simp only [exAsync] at h
  split at h <;> simp only [Ret.ret.injEq, reduceCtorEq] at h <;> subst h <;> rfl

/-- The task that uses the output of a coroutine in the same worker is never executed and `get` waits for ever. -/
theorem C81_coroutine_violated : ¬ C81_full := by
  intro h
  obtain ⟨c, hrun, hc⟩ := Option.map_eq_some_iff.1 (show ((Cluster.init 1).run exAsync (· == 2) exHang).map
      (fun c => (c.root.waiting, [c.chan 0 0, c.chan 0 2, c.chan 2 0, c.chan 2 2], (c.worker 2).running)) =
      some (some ⟨[3], [3], 1, none⟩, [[], [], [], []], []) by decide +kernel)
  simp only [Prod.mk.injEq, List.cons.injEq, and_true] at hc
  obtain ⟨hw, hin, hco⟩ := hc
  have hst : ∀ a, c.step exAsync (· == 2) a = none := by
    intro a
    refine stuck hrun hw ?_ ?_ a
    · intro s d hs hd
      simp only [beq_iff_eq] at hs hd
      rcases hs with rfl | rfl <;> rcases hd with rfl | rfl
      · exact hin.1
      · exact hin.2.1
      · exact hin.2.2.1
      · exact hin.2.2.2
    · intro d hd
      simp only [beq_iff_eq] at hd
      subst hd
      exact hco
  have := (h exAsync (· == 2) 1 exHang c exAsync_plain (by simp [exHang, refs]) rfl (by simp) (by simp [exHang])
    hrun (fun s d => hst _) (fun s => hst _) (fun d i => hst _)).1
  rw [hw] at this
  simp at this

/-- A task with two outputs that returns one value: the request for the second output is dropped. -/
def exTooFew : List Act :=
  [.put (.code 3), .submit 0 [] 2 2, .get [2], .deliver 0 2, .deliver 0 2, .deliver 0 2]

/-- `get` of the second reference of a task that returned one value instead of two waits for ever. -/
theorem C81_short_violated : ¬ C81_full := by
  intro h
  obtain ⟨c, hrun, hc⟩ := Option.map_eq_some_iff.1 (show ((Cluster.init 1).run exWorld (· == 2) exTooFew).map
      (fun c => (c.root.waiting, [c.chan 0 0, c.chan 0 2, c.chan 2 0, c.chan 2 2], (c.worker 2).running)) =
      some (some ⟨[2], [2], 1, none⟩, [[], [], [], []], []) by decide +kernel)
  simp only [Prod.mk.injEq, List.cons.injEq, and_true] at hc
  obtain ⟨hw, hin, hco⟩ := hc
  have hst : ∀ a, c.step exWorld (· == 2) a = none := by
    intro a
    refine stuck hrun hw ?_ ?_ a
    · intro s d hs hd
      simp only [beq_iff_eq] at hs hd
      rcases hs with rfl | rfl <;> rcases hd with rfl | rfl
      · exact hin.1
      · exact hin.2.1
      · exact hin.2.2.1
      · exact hin.2.2.2
    · intro d hd
      simp only [beq_iff_eq] at hd
      subst hd
      exact hco
  have := (h exWorld (· == 2) 1 exTooFew c exWorld_plain (by simp [exTooFew, refs]) rfl (by simp) (by simp [exTooFew])
    hrun (fun s d => hst _) (fun s => hst _) (fun d i => hst _)).1
  rw [hw] at this
  simp at this

/-- The lists that a `get` never returns from: a reference has no value, or an output is in the list twice and was in no earlier
list `pre` (C34). -/
def NeverReturns (W : World) (calls : List Call) (pre : List (List Nat)) (ids : List Nat) : Prop :=
  (∃ i ∈ ids, meaning W calls i = none) ∨
  ∃ i, 2 ≤ ids.count i ∧ (∃ fn args outs, (fn, args, outs) ∈ submits calls ∧ i ∈ outs) ∧ ∀ l ∈ pre, i ∉ l

/-- Exactly what holds and what does not, for programs that submit no coroutine functions. Let `meaning` be the values that
the calls have if they are evaluated one after the other; a reference has no value if its task returned too few values or
has an argument without value. When no message can be received any more, a task was executed if and only if its arguments
have values, and a `get` still waits only if one of its references has no value or is repeated (C34). -/
theorem C81_exact_partial {W : World} {isW : Nat → Bool} {m : Nat} {acts : List Act} {c : Cluster}
    (hcode : ∀ f args v, refsList args = [] → W.call f args = .ret v → refs v = [])
    (hput : ∀ v, Act.put v ∈ acts → refs v = []) (h0 : isW 0 = false) (hm : m ≠ 0)
    (hrun : (Cluster.init m).run W isW acts = some c)
    (hsync : ∀ fn args n d, Act.submit fn args n d ∈ acts → ∀ f, meaning W (callsOf 0 acts) fn = some (.code f) → W.isAsync f = false)
    (hq : ∀ s d, c.step W isW (.deliver s d) = none) (hr : ∀ s, c.step W isW (.reply s) = none) :
    (∀ wt, c.root.waiting = some wt → NeverReturns W (callsOf 0 acts) (c.root.results.map (·.1)) wt.ids) ∧
    ∀ t fn args outs, (submits (callsOf 0 acts))[t]? = some (fn, args, outs) →
      ((∃ d, isW d = true ∧ ∃ r ∈ (c.worker d).log, r.tag = t) ↔ ∀ i ∈ refsList args, meaning W (callsOf 0 acts) i ≠ none) := by
  obtain ⟨H, subs, h, l, hmk⟩ := run_live hcode hput h0 hm hrun hsync
  have hch : ∀ s d, isW d = true → c.chan s d = [] := fun s d hd => chan_of_deliver hd (hq s d)
  constructor
  · intro wt hw
    refine Classical.byContradiction fun hne => no_waiting h l hmk hch ?_ wt hw ?_ ?_
    · intro s i hi wt' hw' hmem
      have hne : c.chan s 0 ≠ [] := by
        intro he; rw [he] at hi; simp [dataIds] at hi
      obtain ⟨k, t, hk⟩ := List.exists_cons_of_ne_nil hne
      obtain ⟨j, v, rfl⟩ := l.toRoot s k (by rw [hk]; simp)
      have hj : j ∈ dataIds (c.chan s 0) := mem_dataIds.2 ⟨v, by rw [hk]; simp⟩
      have hs := h.dataS s (h.dataOwner hj).2 j hj
      have hjr : j ∈ wt.remote := by
        rcases l.askD j s hj with h1 | ⟨wt2, h1, h2⟩
        · exact absurd hs.2 h1
        · rw [hw, Option.some.injEq] at h1
          subst h1
          exact h2
      have := hr s
      simp only [Cluster.step, hw, hk, hjr, if_true] at this
      simp at this
    · intro i hi hn
      obtain ⟨-, -, -, -, -, -, -, hsub, -⟩ := h.wait wt hw
      exact hne (Or.inl ⟨i, hsub i hi, hn⟩)
    · rw [List.nodup_iff_count]
      intro i
      refine Nat.le_of_not_lt fun hlt => ?_
      have hg := getInv_of_run hcode hput h0 hrun
      have hi : i ∈ wt.remote := List.count_pos_iff.1 (by omega)
      obtain ⟨o, ho⟩ := Option.ne_none_iff_exists'.1 (hg.owned wt hw i hi)
      obtain ⟨-, -, t', s', hs', his, -⟩ := h.own i o ho
      refine hne (Or.inr ⟨i, ?_, ⟨_, _, _, h.mem_submits (List.mem_of_getElem? hs'), his⟩, ?_⟩)
      · have := ((getOnce_of_run hcode hput h0 hrun).part wt hw).count_le i
        omega
      · intro l hl
        obtain ⟨p, hp, rfl⟩ := List.mem_map.1 hl
        exact hg.fresh wt hw i hi p hp
  · intro t fn args outs ht
    rw [h.submits, List.getElem?_map, Option.map_eq_some_iff] at ht
    obtain ⟨s, hs, he⟩ := ht
    simp only [Prod.mk.injEq] at he
    obtain ⟨rfl, rfl, rfl⟩ := he
    constructor
    · rintro ⟨d, hd, r, hr, ht⟩
      obtain ⟨s2, d1, -, -, -, -, d6, -⟩ := (h.worker d hd).log r hr
      have d1' : subs[r.tag]? = some s2 := d1
      rw [ht, hs] at d1'
      simp only [Option.some.injEq] at d1'
      subst d1'
      exact d6
    · intro hall
      obtain ⟨hd, r, hr, ht, -⟩ := task_done h l hmk hch hs hall
      exact ⟨_, hd, r, hr, ht⟩

/-- `x, y = f.options(num_returns=2).remote()` with a function that returns one value, `g.remote(y)`, `g.remote(x)`. -/
def exShortOut : List Act :=
  [.put (.code 3), .put (.code 0), .submit 0 [] 2 2, .submit 1 [.ref 3] 1 3, .submit 1 [.ref 2] 1 3, .get [5],
    .deliver 0 2, .deliver 0 2, .deliver 0 3, .deliver 0 3, .deliver 0 3, .deliver 0 3, .deliver 0 3, .deliver 0 3,
    .deliver 3 2, .deliver 3 2, .deliver 2 3, .reply 3]

/-- Of the three tasks the second is not executed, because `y` has no value; `get` of the result of the third returns. -/
example : ((Cluster.init 1).run exWorld (fun r => r == 2 || r == 3) exShortOut).map (fun c => (c.root.waiting, c.root.results,
    (c.worker 2).log.map (·.tag), (c.worker 3).log.map (·.tag))) = some (none, [([5], .values [.data 2])], [0], [2]) ∧
    [2, 3, 4, 5].map (meaning exWorld (callsOf 0 exShortOut)) = [some (.data 1), none, none, some (.data 2)] := by decide +kernel

/-- What holds: if the functions submitted are no coroutine functions and every output has a value, when no message can be
received any more, no `get` waits and every submitted task was executed. -/
theorem C81_no_deadlock_partial {W : World} {isW : Nat → Bool} {m : Nat} {acts : List Act} {c : Cluster}
    (hcode : ∀ f args v, refsList args = [] → W.call f args = .ret v → refs v = [])
    (hput : ∀ v, Act.put v ∈ acts → refs v = []) (h0 : isW 0 = false) (hm : m ≠ 0)
    (hrun : (Cluster.init m).run W isW acts = some c)
    (hsync : ∀ fn args n d, Act.submit fn args n d ∈ acts → ∀ f, meaning W (callsOf 0 acts) fn = some (.code f) → W.isAsync f = false)
    (hget : ∀ ids, Act.get ids ∈ acts → ids.Nodup)
    (hval : ∀ fn args outs, (fn, args, outs) ∈ submits (callsOf 0 acts) → ∀ o ∈ outs, meaning W (callsOf 0 acts) o ≠ none)
    (hq : ∀ s d, c.step W isW (.deliver s d) = none) (hr : ∀ s, c.step W isW (.reply s) = none) :
    c.root.waiting = none ∧
    ∀ t, t < (submits (callsOf 0 acts)).length → ∃ d, isW d = true ∧ ∃ r ∈ (c.worker d).log, r.tag = t := by
  obtain ⟨e1, e2⟩ := C81_exact_partial hcode hput h0 hm hrun hsync hq hr
  obtain ⟨H, subs, h, l, hmk⟩ := run_live hcode hput h0 hm hrun hsync
  have hown : ∀ i, c.root.owner i ≠ none → meaning W (callsOf 0 acts) i ≠ none := by
    intro i hi
    obtain ⟨o, ho⟩ := Option.ne_none_iff_exists'.1 hi
    obtain ⟨-, -, t', s', hs', his, -⟩ := h.own i o ho
    exact hval _ _ _ (h.mem_submits (List.mem_of_getElem? hs')) i his
  constructor
  · cases hw : c.root.waiting with
    | none => rfl
    | some wt =>
      obtain ⟨i, hi, hn⟩ | ⟨i, hi, -⟩ := e1 wt hw
      case inr =>
        obtain ⟨last, hl, -⟩ := (C34_order_partial hcode hput h0 hrun).1
        have : wt.ids ∈ getsOf acts := by
          have := gets_run acts hrun
          rw [started, Cluster.init] at this
          simp only [started, hw, Option.map_some, Option.toList_some] at this
          rw [← List.nil_append (getsOf acts)]
          simp only [List.map_nil, Option.map_none, Option.toList_none, List.append_nil] at this
          rw [← this]; simp
        have h1 : Act.get wt.ids ∈ acts := by
          simp only [getsOf, List.mem_filterMap] at this
          obtain ⟨a, ha, he⟩ := this
          cases a <;> simp at he
          subst he; exact ha
        have := List.nodup_iff_count.1 (hget _ h1) i
        omega
      obtain ⟨-, -, -, -, -, -, h6, -, -, -, -, h11⟩ := h.wait wt hw
      rcases h6 i hi with hc | hc
      · obtain ⟨v, hv⟩ := Option.ne_none_iff_exists'.1 hc
        rw [h.rstore i v hv] at hn
        simp at hn
      · exact absurd hn (hown i (h11 i hc))
  · intro t ht
    rw [h.submits, List.length_map] at ht
    have hs0 : subs[t]? = some subs[t] := List.getElem?_eq_getElem ht
    have hch : ∀ s d, isW d = true → c.chan s d = [] := fun s d hd => chan_of_deliver hd (hq s d)
    refine (e2 t _ _ _ (by rw [h.submits, List.getElem?_map, hs0]; rfl)).2 ?_
    show ∀ i ∈ refsList subs[t].args, _
    obtain ⟨hw, ⟨r, hr, ht', -⟩ | ⟨r, hr, ht'⟩⟩ := h.where_task hch hs0
    · obtain ⟨s2, d1, -, -, -, -, d6, -⟩ := (h.worker _ hw).log r hr
      have d1' : subs[r.tag]? = some s2 := d1
      rw [ht', hs0] at d1'
      simp only [Option.some.injEq] at d1'
      subst d1'
      exact d6
    · obtain ⟨⟨s2, d1, -, -, -, -, -, d7⟩, hk, -⟩ := h.pend _ hw r hr
      have d1' : subs[r.tag]? = some s2 := d1
      rw [ht', hs0] at d1'
      simp only [Option.some.injEq] at d1'
      subst d1'
      intro i hi
      rcases d7 i hi with hc | hc
      · rcases hk i hc with hc | hc
        · obtain ⟨v, hv⟩ := Option.ne_none_iff_exists'.1 hc
          have := (h.worker _ hw).store i v hv
          simp only [ctx] at this
          rw [this]; simp
        · obtain ⟨o, ho⟩ := Option.ne_none_iff_exists'.1 hc
          have := (h.worker _ hw).owner i o ho
          simp only [ctx] at this
          exact hown i (by rw [this]; simp)
      · exact hc

/-- The run `exActs` of two dependent tasks in two workers satisfies the hypotheses and ends with both executed. -/
example : ((Cluster.init 1).run exWorld (fun r => r == 2 || r == 3) exActs).map (fun c => (c.root.waiting,
    (c.worker 2).log.map (·.tag), (c.worker 3).log.map (·.tag))) = some (none, [0], [1]) := by decide +kernel

/-! ## C34 (continued) -/

/-- Exactly what holds of C34, for programs without coroutine functions: no `get` that has returned had a list with a reference
without value or a repeated output that was in no earlier list, and a `get` of any other list is not stuck while it
waits, some message can be received. So a `get` returns if and only if its list is not such a list (see
`C81_terminates_partial`). Missing: repetitions (violated) and coroutine functions. -/
theorem C34_exact_partial {W : World} {isW : Nat → Bool} {m : Nat} {acts : List Act} {c : Cluster}
    (hcode : ∀ f args v, refsList args = [] → W.call f args = .ret v → refs v = [])
    (hput : ∀ v, Act.put v ∈ acts → refs v = []) (h0 : isW 0 = false) (hm : m ≠ 0)
    (hrun : (Cluster.init m).run W isW acts = some c)
    (hsync : ∀ fn args n d, Act.submit fn args n d ∈ acts → ∀ f, meaning W (callsOf 0 acts) fn = some (.code f) → W.isAsync f = false) :
    (∀ pre p post, c.root.results = pre ++ p :: post → ¬ NeverReturns W (callsOf 0 acts) (pre.map (·.1)) p.1) ∧
    ∀ wt, c.root.waiting = some wt → ¬ NeverReturns W (callsOf 0 acts) (c.root.results.map (·.1)) wt.ids →
      (∃ s d, c.step W isW (.deliver s d) ≠ none) ∨ ∃ s, c.step W isW (.reply s) ≠ none := by
  constructor
  · obtain ⟨H, subs, h, l, -⟩ := run_live hcode hput h0 hm hrun hsync
    rintro pre p post he (⟨i, hi, hn⟩ | ⟨i, h2, ⟨fn, args, outs, hs, ho⟩, hp⟩)
    · obtain ⟨v, hv⟩ := Option.ne_none_iff_exists'.1 (l.res p (by rw [he]; simp) i hi)
      rw [h.rstore i v hv] at hn
      simp at hn
    · obtain ⟨s, hsub, rfl, rfl, rfl⟩ := h.sub_of hs
      have hown : c.root.owner i ≠ none := by
        have := h.ok.own s hsub i ho
        simp only [ctx] at this
        rw [this]; simp
      have := (getOnce_of_run hcode hput h0 hrun).once pre p post he i hown
        (fun q hq => hp q.1 (List.mem_map_of_mem hq))
      omega
  · intro wt hw hv
    refine Classical.byContradiction fun hne => ?_
    rw [not_or] at hne
    exact hv ((C81_exact_partial hcode hput h0 hm hrun hsync
      (fun s d => Classical.byContradiction fun hc => hne.1 ⟨s, d, hc⟩)
      (fun s => Classical.byContradiction fun hc => hne.2 ⟨s, hc⟩)).1 wt hw)

/-- A repeated reference is returned twice if its value was fetched before; otherwise the `get` waits for ever. -/
example : ((Cluster.init 1).run exWorld (· == 2)
    [.put (.code 0), .submit 0 [.data 4] 1 2, .get [1], .deliver 0 2, .deliver 0 2, .deliver 0 2, .reply 2, .get [1, 1]]).map
      (·.root.results) = some [([1], .values [.data 5]), ([1, 1], .values [.data 5, .data 5])] := by decide +kernel

example : ((Cluster.init 1).run exWorld (fun r => r == 2 || r == 3) (exActs.take 5)).map (fun c => (c.root.waiting.isSome,
    (c.step exWorld (fun r => r == 2 || r == 3) (.deliver 0 3)).isSome)) = some (true, true) := by decide +kernel

/-! ## C38 (continued) -/

/-- What holds of C38: in programs of the main process that use only plain functions, every task a worker holds back has a
missing argument, in every reachable state. Missing: actors, coroutine functions and tasks submitted by several processes
(all violated). -/
theorem C38_cluster_partial {W : World} {isW : Nat → Bool} {m : Nat} {acts : List Act} {c : Cluster}
    (hcode : ∀ f args v, refsList args = [] → W.call f args = .ret v → refs v = [])
    (hput : ∀ v, Act.put v ∈ acts → refs v = []) (h0 : isW 0 = false) (hm : m ≠ 0)
    (hrun : (Cluster.init m).run W isW acts = some c)
    (hsync : ∀ fn args n d, Act.submit fn args n d ∈ acts → ∀ f, meaning W (callsOf 0 acts) fn = some (.code f) → W.isAsync f = false) :
    ∀ d, isW d = true → ∀ r ∈ (c.worker d).pending, ∃ i ∈ refsList r.args, (c.worker d).store i = none := by
  obtain ⟨H, subs, h, l, -⟩ := run_live hcode hput h0 hm hrun hsync
  exact fun d hd r hr => ((l.wl d hd).held r hr).1

/-- Worker 3 holds back the second task of `exActs` until the value of reference 2 arrives. -/
example : ((Cluster.init 1).run exWorld (fun r => r == 2 || r == 3) (exActs.take 9)).map (fun c =>
    ((c.worker 3).pending.map (fun r => refsList r.args), (c.worker 3).store 2)) = some ([[2]], none) := by decide +kernel

end Verif.Props

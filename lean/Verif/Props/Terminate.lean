import Verif.Lemmas.ClusterCost
import Verif.Props.Live

/-! Programs of remote function calls come to an end (C81 continued). -/
namespace Verif.Cluster
open Verif.Spec
open Verif.Worker

variable {W : World} {isW : Nat → Bool} {m : Nat} {acts : List Act} {c : Cluster}

theorem run_snoc {a : Act} {c' : Cluster} : ∀ (acts : List Act) {c0 c : Cluster}, c0.run W isW acts = some c →
    c.step W isW a = some (.ok c') → c0.run W isW (acts ++ [a]) = some c'
  | [], c0, c, h, hs => by
    simp only [Cluster.run, Option.some.injEq] at h
    subst h
    simp [Cluster.run, hs]
  | b :: t, c0, c, h, hs => by
    simp only [Cluster.run, List.cons_append] at h ⊢
    split at h
    · exact run_snoc t h hs
    · simp at h

theorem callsOf_snoc {a : Act} (ha : isStep a = true) : ∀ (acts : List Act) (n : Nat), callsOf n (acts ++ [a]) = callsOf n acts
  | [], n => by cases a <;> simp [isStep] at ha <;> rfl
  | b :: t, n => by simp only [List.cons_append, callsOf, callsOf_snoc ha t]

theorem reply_no_error {s : Nat} {e : Crash} : c.step W isW (.reply s) ≠ some (.error e) := by
  intro h
  simp only [Cluster.step] at h
  split at h
  · split at h <;> simp at h
  · simp at h

end Verif.Cluster

namespace Verif.Props
open Verif.Cluster Verif.Spec
open Verif.Worker (Val Ret World Request Task Msg Crash Worker)

/-- For every program, also with coroutines and failing functions: the processes make only a bounded number of steps
for the calls made so far. So every run in which the user makes no more calls ends. -/
theorem C81_bounded {W : World} {isW : Nat → Bool} {m : Nat} {acts : List Act} {c : Cluster} {ws : List Nat}
    (hcode : ∀ f args v, refsList args = [] → W.call f args = .ret v → refs v = [])
    (hput : ∀ v, Act.put v ∈ acts → refs v = []) (h0 : isW 0 = false) (hws : ws.Nodup)
    (hw : ∀ d, isW d = true ↔ d ∈ ws) (hrun : (Cluster.init m).run W isW acts = some c) :
    (acts.filter isStep).length ≤ (acts.map (budget ws.length)).sum := by
  have h := potential_run hcode h0 (ws := ws) (by
    rw [List.nodup_cons, ← hw, h0]; exact ⟨by simp, hws⟩) hw acts (inv_init W isW m) (fun _ _ _ _ => rfl)
    (fun a ha => by cases a <;> first | exact hput _ ha | trivial) hrun
  rw [potential_init] at h
  omega

/-- Eleven steps are made for the calls of `exActs`; the bound is 29. -/
example : ((exActs.filter isStep).length, (exActs.map (budget 2)).sum) = (11, 29) := by decide +kernel

/-- What holds in addition: if the functions submitted are no coroutine functions and no task crashes its worker (a task that
raises has an output, a task with several outputs returns a list), then from every reachable state the processes can and
will come to an end: as long as a message can be received the step succeeds, only boundedly many such steps are possible
(see `C81_bounded`), and at the end a `get` waits only if one of its references has no value or is repeated (C34), and exactly the tasks whose
arguments have values were executed. -/
theorem C81_terminates_partial {W : World} {isW : Nat → Bool} {m : Nat} {acts : List Act} {c : Cluster} {ws : List Nat}
    (hcode : ∀ f args v, refsList args = [] → W.call f args = .ret v → refs v = [])
    (hput : ∀ v, Act.put v ∈ acts → refs v = []) (h0 : isW 0 = false) (hm : m ≠ 0) (hws : ws.Nodup)
    (hw : ∀ d, isW d = true ↔ d ∈ ws)
    (hrun : (Cluster.init m).run W isW acts = some c)
    (hsync : ∀ fn args n d, Act.submit fn args n d ∈ acts → ∀ f, meaning W (callsOf 0 acts) fn = some (.code f) → W.isAsync f = false)
    (hout : ∀ fn args outs, (fn, args, outs) ∈ submits (callsOf 0 acts) →
      (∀ e, taskResult W (meaning W (callsOf 0 acts)) fn args = some (.raise e) → outs ≠ []) ∧
      (∀ v, taskResult W (meaning W (callsOf 0 acts)) fn args = some (.ret v) → 2 ≤ outs.length → ∃ vs, v = .list vs)) :
    (∀ s d e, c.step W isW (.deliver s d) ≠ some (.error e)) ∧
    ∃ more c', (∀ a ∈ more, isStep a = true) ∧ c.run W isW more = some c' ∧
      (∀ s d, c'.step W isW (.deliver s d) = none) ∧ (∀ s, c'.step W isW (.reply s) = none) ∧
      (∀ wt, c'.root.waiting = some wt → NeverReturns W (callsOf 0 acts) (c'.root.results.map (·.1)) wt.ids) ∧
      ∀ t fn args outs, (submits (callsOf 0 acts))[t]? = some (fn, args, outs) →
        ((∃ d, isW d = true ∧ ∃ r ∈ (c'.worker d).log, r.tag = t) ↔ ∀ i ∈ refsList args, meaning W (callsOf 0 acts) i ≠ none) := by
  have hws0 : (0 :: ws).Nodup := by rw [List.nodup_cons, ← hw, h0]; exact ⟨by simp, hws⟩
  generalize hcalls : callsOf 0 acts = calls at hsync hout ⊢
  have noerr : ∀ (acts : List Act) (c : Cluster), callsOf 0 acts = calls → (∀ v, Act.put v ∈ acts → refs v = []) →
      (Cluster.init m).run W isW acts = some c → ∀ s d e, c.step W isW (.deliver s d) ≠ some (.error e) := by
    rintro acts c rfl hput hrun s d e he
    obtain ⟨subs, h⟩ := run_inv hcode hput h0 hrun
    rcases h.deliver_error he with ⟨-, sb, hs, ho, k, hk⟩ | ⟨-, sb, hs, ho, v, hv, hl⟩
    · exact (hout _ _ _ (h.mem_submits hs)).1 k hk ho
    · obtain ⟨vs, hvs⟩ := (hout _ _ _ (h.mem_submits hs)).2 v hv ho
      exact hl vs hvs
  refine ⟨noerr acts c hcalls hput hrun, ?_⟩
  have key : ∀ (k : Nat) (acts : List Act) (c : Cluster), callsOf 0 acts = calls → potential ws c ≤ k →
      (∀ v, Act.put v ∈ acts → refs v = []) →
      (∀ fn args n d, Act.submit fn args n d ∈ acts → ∀ f, meaning W calls fn = some (.code f) → W.isAsync f = false) →
      (Cluster.init m).run W isW acts = some c →
      ∃ more c', (∀ a ∈ more, isStep a = true) ∧ c.run W isW more = some c' ∧
        (∀ s d, c'.step W isW (.deliver s d) = none) ∧ (∀ s, c'.step W isW (.reply s) = none) ∧
        (∀ wt, c'.root.waiting = some wt → NeverReturns W calls (c'.root.results.map (·.1)) wt.ids) ∧
        ∀ t fn args outs, (submits calls)[t]? = some (fn, args, outs) →
          ((∃ d, isW d = true ∧ ∃ r ∈ (c'.worker d).log, r.tag = t) ↔ ∀ i ∈ refsList args, meaning W calls i ≠ none) := by
    intro k
    induction k with
    | zero => ?_
    | succ k ih => ?_
    all_goals
      intro acts c hca hk hput hsync hrun
      by_cases hstep : ∃ a, (isStep a = true ∧ (∀ w i, a ≠ .complete w i)) ∧ c.step W isW a ≠ none
      · obtain ⟨a, ⟨ha, hnc⟩, hne⟩ := hstep
        obtain ⟨x, hx⟩ := Option.ne_none_iff_exists'.1 hne
        obtain ⟨c1, hc1⟩ : ∃ c1, x = .ok c1 := by
          cases x with
          | ok c1 => exact ⟨c1, rfl⟩
          | error e =>
            cases a with
            | deliver s d => exact absurd hx (noerr acts c hca hput hrun s d e)
            | reply s => exact absurd hx reply_no_error
            | complete w i => exact absurd rfl (hnc w i)
            | _ => simp [isStep] at ha
        subst hc1
        obtain ⟨subs, h⟩ := run_inv hcode hput h0 hrun
        have hp := potential_step h hws0 hw (senders_run acts (fun _ _ _ _ => rfl) hrun) hx
        have hb : budget ws.length a = 0 := by cases a <;> simp [isStep] at ha <;> rfl
        simp only [ha, if_true, hb] at hp
        first
        | omega
        | have hmem : ∀ b, b ∈ acts ++ [a] → isStep b = false → b ∈ acts := by
            intro b hb hs
            rcases List.mem_append.1 hb with h1 | h1
            · exact h1
            · rw [List.mem_singleton] at h1; subst h1; rw [ha] at hs; simp at hs
          obtain ⟨more, c', h1, h2, h3, h4, h5, h6⟩ := ih (acts ++ [a]) c1 (by rw [callsOf_snoc ha]; exact hca) (by omega)
            (fun v hv => hput v (hmem _ hv rfl))
            (fun fn args n d hv => hsync fn args n d (hmem _ hv rfl)) (run_snoc acts hrun hx)
          refine ⟨a :: more, c', ?_, ?_, h3, h4, h5, h6⟩
          · intro b hb
            rcases List.mem_cons.1 hb with rfl | hb
            · exact ha
            · exact h1 b hb
          · simp only [Cluster.run, hx]; exact h2
      · have hq : ∀ s d, c.step W isW (.deliver s d) = none := by
          intro s d
          cases hs : c.step W isW (.deliver s d) with
          | none => rfl
          | some x => exact absurd ⟨.deliver s d, ⟨rfl, by simp⟩, by rw [hs]; simp⟩ hstep
        have hr : ∀ s, c.step W isW (.reply s) = none := by
          intro s
          cases hs : c.step W isW (.reply s) with
          | none => rfl
          | some x => exact absurd ⟨.reply s, ⟨rfl, by simp⟩, by rw [hs]; simp⟩ hstep
        subst hca
        have := C81_exact_partial hcode hput h0 hm hrun hsync hq hr
        exact ⟨[], c, by simp, rfl, hq, hr, this.1, this.2⟩
  exact key _ acts c hcalls (Nat.le_refl _) hput hsync hrun

/-- After the five calls of `exActs` the remaining eleven steps finish the program. -/
example : ((Cluster.init 1).run exWorld (fun r => r == 2 || r == 3) (exActs.take 5)).bind (fun c =>
    (c.run exWorld (fun r => r == 2 || r == 3) (exActs.drop 5)).map fun c' => (c.root.waiting.isSome, c'.root.waiting.isSome,
      (exActs.drop 5).all isStep)) = some (true, false, true) := by decide +kernel

/-- User code with a function that returns two values and one that returns three. -/
def exUneven : World where
  call
    | 0, [] => .ret (.list [.data 1, .data 2])
    | 1, [.data a] => .ret (.list [.data a, .data (a + 1), .data (a + 2)])
    | _, _ => .raise 5
  method _ s _ := (s, .ret s)
  isAsync c := c == 9

/-- `x, y = f.options(num_returns=2).remote()`, `u, v, w = g.options(num_returns=3).remote(y)`, `get([x, w])`. -/
def exUnevenCalls : List Act :=
  [.put (.code 0), .put (.code 1), .submit 0 [] 2 2, .submit 1 [.ref 3] 3 3, .get [2, 6]]

/-- Both functions return as many values as are asked for, so the program comes to an end. -/
example : ∃ c, (Cluster.init 1).run exUneven (fun r => r == 2 || r == 3) exUnevenCalls = some c ∧
    ∃ more c', c.run exUneven (fun r => r == 2 || r == 3) more = some c' ∧
      ∃ d, ∃ r ∈ (c'.worker d).log, r.tag = 1 := by
  cases hr : (Cluster.init 1).run exUneven (fun r => r == 2 || r == 3) exUnevenCalls with
  | none => exact absurd hr (Option.isSome_iff_ne_none.1 (by decide +kernel))
  | some c =>
    refine ⟨c, rfl, ?_⟩
    obtain ⟨-, more, c', -, h2, -, -, -, h6⟩ := C81_terminates_partial (ws := [2, 3]) (by
        intro f args v _ h
        simp only [exUneven] at h
        split at h <;> simp only [Ret.ret.injEq, reduceCtorEq] at h <;> subst h <;> rfl)
      (by simp [exUnevenCalls, refs]) rfl (by decide) (by decide) (by intro d; simp) hr
      (by
        intro fn args n d hs f hf
        have h0 : meaning exUneven (callsOf 0 exUnevenCalls) 0 = some (.code 0) := by decide +kernel
        have h1 : meaning exUneven (callsOf 0 exUnevenCalls) 1 = some (.code 1) := by decide +kernel
        simp only [exUnevenCalls, List.mem_cons, reduceCtorEq, Act.submit.injEq, List.not_mem_nil, or_false, false_or] at hs
        rcases hs with ⟨rfl, -⟩ | ⟨rfl, -⟩
        · rw [h0] at hf; cases hf; rfl
        · rw [h1] at hf; cases hf; rfl)
      (by
        have h0 : taskResult exUneven (meaning exUneven (callsOf 0 exUnevenCalls)) 0 [] =
            some (.ret (.list [.data 1, .data 2])) := by decide +kernel
        have h1 : taskResult exUneven (meaning exUneven (callsOf 0 exUnevenCalls)) 1 [.ref 3] =
            some (.ret (.list [.data 2, .data 3, .data 4])) := by decide +kernel
        intro fn args outs hs
        have hs' : (fn = 0 ∧ args = [] ∧ outs = [2, 3]) ∨ (fn = 1 ∧ args = [.ref 3] ∧ outs = [4, 5, 6]) := by
          simpa [submits, callsOf, exUnevenCalls, callOf, nextOf, List.range_succ] using hs
        rcases hs' with ⟨rfl, rfl, rfl⟩ | ⟨rfl, rfl, rfl⟩
        · rw [h0]; exact ⟨by simp, fun v hv _ => by cases hv; exact ⟨_, rfl⟩⟩
        · rw [h1]; exact ⟨by simp, fun v hv _ => by cases hv; exact ⟨_, rfl⟩⟩)
    refine ⟨more, c', h2, ?_⟩
    obtain ⟨d, -, hd⟩ := (h6 1 1 [.ref 3] [4, 5, 6] (by decide +kernel)).2 (by decide +kernel)
    exact ⟨d, hd⟩


end Verif.Props

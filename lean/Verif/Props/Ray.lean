import Verif.Model.Ray
import Verif.Lemmas.Float

/-! Properties of the Ray backend (C76, C85, C86). -/
namespace Verif.Ray

open Verif.Float (round53 unit_facts)

theorem round_ge_iff {s b : Nat} (hs : s < 2 ^ 52) : 2 ^ 53 * b ≤ round53 (ratio * s) ↔ 5 * b ≤ 3 * s := by
  generalize hp : ratio * s = p
  have hp5 : 5 * p + s = 3 * 2 ^ 53 * s := by rw [← hp]; unfold ratio; omega
  obtain ⟨u, hu, hpos, hlow, hhigh, hdvd⟩ := unit_facts (p := p) (by omega)
  obtain ⟨w, hw⟩ := hdvd
  have hB : 2 ^ 53 * b = u * (w * b) := by rw [hw, Nat.mul_assoc]
  generalize hk : w * b = k at hB
  have hdm := Nat.div_add_mod p u
  have hr := Nat.mod_lt p hpos
  simp only [round53, ← hu]
  generalize p / u = q at hdm
  generalize p % u = r at hdm hr
  rw [Nat.mul_comm q u, Nat.mul_comm (q + 1) u, Nat.mul_add, Nat.mul_one]
  -- a multiple of `u` that is at least `u * k` or less than it
  have hcmp : k ≤ q ∧ u * k ≤ u * q ∨ k = q + 1 ∧ u * k = u * q + u ∨ q + 2 ≤ k ∧ u * q + 2 * u ≤ u * k := by
    by_cases h1 : k ≤ q
    · exact .inl ⟨h1, Nat.mul_le_mul_left u h1⟩
    · by_cases h2 : k = q + 1
      · right; left; subst h2; exact ⟨rfl, by rw [Nat.mul_add, Nat.mul_one]⟩
      · right; right
        have := Nat.mul_le_mul_left u (show q + 2 ≤ k by omega)
        rw [Nat.mul_add, Nat.mul_comm u 2] at this
        exact ⟨by omega, this⟩
  rw [hB]
  generalize u * k = B at hB hcmp
  generalize u * q = uq at hdm hcmp
  constructor
  · intro h
    apply Classical.byContradiction
    intro hlt
    rcases hlow with rfl | hlow
    · split at h <;> omega
    · split at h <;> omega
  · intro h
    have hbig : s = 0 ∨ 2 * s < 5 * u := by omega
    rcases hbig with rfl | hbig
    · have : B = 0 := by omega
      omega
    · split <;> omega

theorem wholeGigabytes_eq {s : Nat} (hs : s < 2 ^ 52) : wholeGigabytes s = 3 * s / 5 / 10 ^ 9 * 10 ^ 9 := by
  unfold wholeGigabytes
  congr 1
  apply Nat.le_antisymm
  · rw [Nat.le_div_iff_mul_le (by decide), Nat.le_div_iff_mul_le (by decide)]
    generalize hq : round53 (ratio * s) / (2 ^ 53 * 10 ^ 9) = q
    have := (round_ge_iff (b := q * 10 ^ 9) hs).1 (by
      have := Nat.div_mul_le_self (round53 (ratio * s)) (2 ^ 53 * 10 ^ 9)
      rw [hq] at this
      omega)
    omega
  · rw [Nat.le_div_iff_mul_le (by decide)]
    generalize hq : 3 * s / 5 / 10 ^ 9 = q
    have := (round_ge_iff (b := q * 10 ^ 9) hs).2 (by
      have h1 := Nat.div_mul_le_self (3 * s / 5) (10 ^ 9)
      have h2 := Nat.div_mul_le_self (3 * s) 5
      rw [hq] at h1
      omega)
    omega

theorem assign_keys (r : List (String × Nat)) (a : String) (c : Nat) :
    (assign r a c).map (·.1) = if a ∈ r.map (·.1) then r.map (·.1) else r.map (·.1) ++ [a] := by
  induction r with
  | nil => simp [assign]
  | cons p r ih =>
    obtain ⟨b, d⟩ := p
    simp only [assign]
    by_cases e : b = a
    · simp [e]
    · have e' : ¬ a = b := fun h => e h.symm
      rw [if_neg e, List.map_cons, ih, List.map_cons]
      simp only [List.mem_cons, e', false_or]
      split <;> simp

theorem assign_new {r : List (String × Nat)} {a : String} {c : Nat} (h : a ∉ r.map (·.1)) : assign r a c = r ++ [(a, c)] := by
  induction r with
  | nil => rfl
  | cons p r ih =>
    obtain ⟨b, d⟩ := p
    simp only [List.map_cons, List.mem_cons, not_or] at h
    simp only [assign]
    rw [if_neg fun e => h.1 e.symm, ih h.2, List.cons_append]

theorem fold_new (nodes : List Node) : ∀ r : List (String × Nat), (r.map (·.1) ++ nodes.map (·.address)).Nodup →
    nodes.foldl (fun r n => assign r n.address (n.cpu.getD 1)) r = r ++ nodes.map fun n => (n.address, n.cpu.getD 1) := by
  induction nodes with
  | nil => intro r _; simp
  | cons n nodes ih =>
    intro r h
    have hn : n.address ∉ r.map (·.1) := by
      intro hm
      rw [List.nodup_append] at h
      exact h.2.2 _ hm _ (by simp) rfl
    rw [List.foldl_cons, assign_new hn, ih]
    · simp
    · simpa using h

end Verif.Ray

namespace Verif.Props
open Verif.Ray

/-! ## C76 -/

/-- **C76**: the configured size if there is one. Otherwise, for a memory below 2⁵² bytes (4 PiB), exactly three fifths of the memory
(shared memory file system on Linux, all memory elsewhere) rounded down to whole gigabytes (10⁹ bytes), absent if that is zero, and at
most 2 GiB on macOS with Ray 1.3.0 or later. The floating point rounding of `0.6 * memory` never changes the result. -/
theorem C76_memory (h : Host) (hv : h.virtualMemory < 2 ^ 52) (hs : h.shmBytes < 2 ^ 52) :
    (∀ m, h.configured = some m → objectStoreMemory h = some m) ∧
    (h.configured = none → ∀ memory, memory = (if h.platform = .linux then h.shmBytes else h.virtualMemory) →
      ∀ gigabytes, gigabytes = 3 * memory / 5 / 1000000000 →
        (gigabytes = 0 → objectStoreMemory h = none) ∧
        (gigabytes ≠ 0 → h.platform = .darwin ∧ h.ray130 = true → objectStoreMemory h = some (min (gigabytes * 1000000000) 2147483648)) ∧
        (gigabytes ≠ 0 → ¬ (h.platform = .darwin ∧ h.ray130 = true) → objectStoreMemory h = some (gigabytes * 1000000000))) := by
  refine ⟨fun m hm => by simp [objectStoreMemory, hm], ?_⟩
  intro hc memory hmem gb hgb
  have hlt : memory < 2 ^ 52 := by rw [hmem]; split <;> assumption
  have hw := wholeGigabytes_eq hlt
  rw [show (10 : Nat) ^ 9 = 1000000000 by decide, ← hgb] at hw
  simp only [objectStoreMemory, hc, ← hmem, hw, macLimit]
  refine ⟨?_, ?_, ?_⟩
  · intro h0; simp [h0]
  · intro h0 hd
    rw [if_neg (by omega), if_pos hd]
  · intro h0 hd
    rw [if_neg (by omega), if_neg hd]

/-- **C76**, the bounds: the size chosen for an unset configuration is a positive number of whole gigabytes or the limit of macOS, and
at most three fifths of the memory. -/
theorem C76_bounds (h : Host) (hv : h.virtualMemory < 2 ^ 52) (hs : h.shmBytes < 2 ^ 52) (hc : h.configured = none) (m : Nat)
    (hm : objectStoreMemory h = some m) :
    0 < m ∧ 5 * m ≤ 3 * (if h.platform = .linux then h.shmBytes else h.virtualMemory) ∧ (m % 1000000000 = 0 ∨ m = 2147483648) ∧
      (h.platform = .darwin → h.ray130 = true → m ≤ 2147483648) := by
  obtain ⟨h1, h2, h3⟩ := (C76_memory h hv hs).2 hc _ rfl _ rfl
  generalize (if h.platform = .linux then h.shmBytes else h.virtualMemory) = memory at h1 h2 h3
  by_cases h0 : 3 * memory / 5 / 1000000000 = 0
  · rw [h1 h0] at hm; cases hm
  · by_cases hd : h.platform = .darwin ∧ h.ray130 = true
    · rw [h2 h0 hd, Option.some.injEq] at hm
      subst hm
      refine ⟨by omega, by omega, by omega, fun _ _ => by omega⟩
    · rw [h3 h0 hd, Option.some.injEq] at hm
      subst hm
      exact ⟨by omega, by omega, by omega, fun a b => absurd ⟨a, b⟩ hd⟩

/-- Five gigabytes: the floating point number `0.6` is less than three fifths, but the product is rounded to 3e9. -/
example : objectStoreMemory ⟨none, 16000000000, 5000000000, .linux, true⟩ = some 3000000000 := by decide +kernel
example : objectStoreMemory ⟨none, 16000000000, 4999999999, .linux, true⟩ = some 2000000000 := by decide +kernel
example : objectStoreMemory ⟨none, 16000000000, 1000000000, .darwin, true⟩ = some 2147483648 := by decide +kernel
example : objectStoreMemory ⟨none, 16000000000, 1000000000, .linux, true⟩ = none := by decide +kernel
example : objectStoreMemory ⟨some 7, 16000000000, 1000000000, .linux, true⟩ = some 7 := by decide +kernel

/-! ## C85 -/

/-- **C85** as stated: the counts of the nodes add up to the CPUs of the cluster. -/
def C85_full : Prop := ∀ nodes : List Node, ((clusterResources nodes).map (·.2)).sum = (nodes.map fun n => n.cpu.getD 0).sum

/-- **C85** does not hold: a node without CPU resource is reported with one CPU. -/
theorem C85_missing_violated : ¬ C85_full := by
  intro h
  have := h [⟨"10.0.0.1", none⟩, ⟨"10.0.0.2", some 4⟩]
  revert this
  decide +kernel

/-- **C85** does not hold: of two nodes with the same address only the last one is counted. -/
theorem C85_address_violated : ¬ C85_full := by
  intro h
  have := h [⟨"10.0.0.1", some 8⟩, ⟨"10.0.0.1", some 4⟩]
  revert this
  decide +kernel

/-- **C85**, the rest: if all nodes have CPUs and different addresses, every node is reported with its CPUs, and the counts add up to
`num_cpus`. -/
theorem C85_partial (nodes : List Node) (ha : (nodes.map (·.address)).Nodup) (hc : ∀ n ∈ nodes, n.cpu ≠ none) :
    clusterResources nodes = nodes.map (fun n => (n.address, n.cpu.getD 0)) ∧
    ((clusterResources nodes).map (·.2)).sum = (nodes.map fun n => n.cpu.getD 0).sum ∧
    (nodes ≠ [] → numCpus nodes = some ((clusterResources nodes).map (·.2)).sum) := by
  have h1 : clusterResources nodes = nodes.map (fun n => (n.address, n.cpu.getD 0)) := by
    rw [clusterResources, fold_new nodes [] (by simpa using ha), List.nil_append]
    apply List.map_congr_left
    intro n hn
    cases hcn : n.cpu with
    | none => exact absurd hcn (hc n hn)
    | some c => rfl
  have h2 : nodes.filterMap (·.cpu) = nodes.map fun n => n.cpu.getD 0 := by
    clear ha h1
    induction nodes with
    | nil => rfl
    | cons n nodes ih =>
      have ih := ih fun m hm => hc m (List.mem_cons_of_mem _ hm)
      cases hcn : n.cpu with
      | none => exact absurd hcn (hc n (by simp))
      | some c => simp [hcn, ih]
  refine ⟨h1, by rw [h1, List.map_map]; rfl, ?_⟩
  intro hne
  have : nodes.map (fun n => n.cpu.getD 0) ≠ [] := by simpa using hne
  simp only [numCpus, h2, if_neg this, h1, List.map_map]
  rfl

theorem assign_lookup (r : List (String × Nat)) (a b : String) (c : Nat) :
    (assign r a c).lookup b = if b = a then some c else r.lookup b := by
  induction r with
  | nil =>
    by_cases h : b = a
    · simp [assign, h]
    · have h' : (b == a) = false := by simpa using h
      simp [assign, List.lookup, h, h']
  | cons p r ih =>
    obtain ⟨x, d⟩ := p
    simp only [assign]
    by_cases h : b = x
    · subst h
      by_cases e : b = a
      · simp [e]
      · simp [e]
    · have h' : (b == x) = false := by simpa using h
      by_cases e : x = a
      · subst e; simp [List.lookup_cons, h, h']
      · rw [if_neg e, List.lookup_cons, ih, List.lookup_cons]; simp [h']

theorem fold_lookup (b : String) (nodes : List Node) : ∀ r : List (String × Nat),
    (nodes.foldl (fun r n => assign r n.address (n.cpu.getD 1)) r).lookup b =
      match nodes.reverse.find? (fun n => n.address == b) with
      | some n => some (n.cpu.getD 1)
      | none => r.lookup b := by
  induction nodes with
  | nil => intro r; rfl
  | cons n nodes ih =>
    intro r
    rw [List.foldl_cons, ih, List.reverse_cons, List.find?_append]
    cases nodes.reverse.find? (fun n => n.address == b) with
    | some m => rfl
    | none =>
      simp only [Option.none_or, List.find?_cons, assign_lookup]
      by_cases h : n.address = b
      · simp [h]
      · have h' : (n.address == b) = false := by simpa using h
        simp only [h', List.find?_nil]
        exact if_neg fun e => h e.symm

theorem fold_keys (nodes : List Node) : ∀ r : List (String × Nat), (r.map (·.1)).Nodup →
    ((nodes.foldl (fun r n => assign r n.address (n.cpu.getD 1)) r).map (·.1)).Nodup := by
  induction nodes with
  | nil => intro r h; exact h
  | cons n nodes ih =>
    intro r h
    rw [List.foldl_cons]
    refine ih _ ?_
    rw [assign_keys]
    split
    · exact h
    · rename_i hn
      rw [List.nodup_append]
      exact ⟨h, by simp, fun x hx y hy e => hn (by simp at hy; rw [← hy, ← e]; exact hx)⟩

/-- **C85**, exactly: an address is reported if it is the address of a node, once, and then with the CPUs of the last node with that address, or 1 if
that node has none. -/
theorem C85_exactly_partial (nodes : List Node) :
    ((clusterResources nodes).map (·.1)).Nodup ∧
    (∀ pre n post, nodes = pre ++ n :: post → (∀ m ∈ post, m.address ≠ n.address) →
      (clusterResources nodes).lookup n.address = some (n.cpu.getD 1)) ∧
    (∀ a, (∀ n ∈ nodes, n.address ≠ a) → (clusterResources nodes).lookup a = none) := by
  refine ⟨fold_keys nodes [] (by simp), fun pre n post e h => ?_, fun a h => ?_⟩
  · have hf : nodes.reverse.find? (fun m => m.address == n.address) = some n := by
      subst e
      rw [List.reverse_append, List.reverse_cons, List.find?_append, List.find?_append,
        List.find?_eq_none.2 (by intro m hm; simpa using h m (by simpa using hm))]
      simp
    rw [clusterResources, fold_lookup, hf]
  · have hf : nodes.reverse.find? (fun m => m.address == a) = none := by
      rw [List.find?_eq_none]
      intro m hm
      simpa using h m (by simpa using hm)
    rw [clusterResources, fold_lookup, hf]
    rfl

example : (clusterResources [⟨"10.0.0.1", some 8⟩, ⟨"10.0.0.2", none⟩, ⟨"10.0.0.1", some 4⟩]).lookup "10.0.0.1" = some 4 :=
  (C85_exactly_partial _).2.1 [⟨"10.0.0.1", some 8⟩, ⟨"10.0.0.2", none⟩] ⟨"10.0.0.1", some 4⟩ [] rfl (by simp)

example : clusterResources [⟨"10.0.0.1", some 8⟩, ⟨"10.0.0.2", some 4⟩] = [("10.0.0.1", 8), ("10.0.0.2", 4)] := by decide +kernel

/-! ## C86 -/

/-- **C86**: Ray is initialized unless it already is and no cluster is used. With a cluster it is connected to the configured address, or
to the automatically found one, and the password is the one of the user or else the default of Ray. Otherwise it is started with the
configured numbers of CPUs and GPUs, the chosen object store memory and the configured password. -/
theorem C86_initialize (s : Settings) (h : Host) :
    (initializeRay s h = none ↔ s.initialized = true ∧ s.cluster = false) ∧
    (s.cluster = true → ∃ address password, initializeRay s h = some (.connect address password) ∧
      (∀ a, s.address = some a → a ≠ "" → address = a) ∧ (s.address = none ∨ s.address = some "" → address = "auto") ∧
      password = if s.passwordIsDefault then s.rayPassword else s.password) ∧
    (s.cluster = false → s.initialized = false →
      initializeRay s h = some (.start s.cpus s.gpus (objectStoreMemory h) s.password)) := by
  refine ⟨?_, ?_, ?_⟩
  · simp only [initializeRay]
    cases s.initialized <;> cases s.cluster <;> simp
  · intro hc
    simp only [initializeRay, hc, Bool.or_true, if_true]
    refine ⟨_, _, rfl, ?_, ?_, rfl⟩
    · intro a ha hne
      simp [ha, hne]
    · rintro (ha | ha) <;> simp [ha]
  · intro hc hi
    simp [initializeRay, hc, hi]

example : initializeRay ⟨true, true, some "", true, "a", "b", 4, 0⟩ ⟨none, 0, 0, .linux, true⟩ = some (.connect "auto" "b") := by decide +kernel
example : initializeRay ⟨false, false, none, false, "a", "b", 4, 1⟩ ⟨none, 0, 10000000000, .linux, true⟩ =
    some (.start 4 1 (some 6000000000) "a") := by decide +kernel

end Verif.Props

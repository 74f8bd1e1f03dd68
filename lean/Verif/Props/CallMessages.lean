import Verif.Model.CallMessages
import Verif.Props.Packing

/-! What can be given to a function can be given to a method and to the constructor of an actor (C122). -/
namespace Verif.Props
open Verif.Packing Verif.Spec

/-- An object can be stored with `put`. -/
def CanBePut (o : Packing.Obj) : Prop := encode o ≠ none

/-- **C122**, full claim: exactly the calls can be sent whose arguments can be stored, whatever is called. (Classes can always be sent.) -/
def C122_full : Prop := ∀ (k : CallKind) (args kwargs : List Packing.Obj) (outs : List Nat), (∀ cls h, k = .create cls h → CanBePut cls) →
  (sends k args kwargs outs = true ↔ ∀ x, x ∈ args ∨ x ∈ kwargs → CanBePut x)

theorem encodeAll_ne_none {xs : List Packing.Obj} : encodeAll xs ≠ none ↔ ∀ x ∈ xs, encode x ≠ none := by
  induction xs with
  | nil => simp [encodeAll]
  | cons x xs ih =>
    rw [List.forall_mem_cons, ← ih]
    simp only [encodeAll]
    cases encode x <;> cases encodeAll xs <;> simp

theorem encode_list_ne_none {xs : List Packing.Obj} : encode (.list xs) ≠ none ↔ ∀ x ∈ xs, encode x ≠ none := by
  rw [← encodeAll_ne_none, encode]; simp

theorem encode_dict_ne_none {xs : List Packing.Obj} : encode (.dict xs) ≠ none ↔ ∀ x ∈ xs, encode x ≠ none := by
  rw [← encodeAll_ne_none, encode]; simp

theorem encode_ref_ne_none (n : Nat) : encode (ref n) ≠ none := by
  simp [ref, encode, encodeCustom, isPickle5, isCloud]

theorem encode_seq_ne_none {xs : List Packing.Obj} : encode (.pickledSeq xs) ≠ none ↔ picklesAll xs = true := by
  simp only [encode, encodeCustom, isPickle5, isCloud, pickles]
  by_cases h : picklesAll xs = true <;> simp [h]

/-- The message can be serialized if what is in it can be. -/
theorem sends_iff (k : CallKind) (args kwargs : List Packing.Obj) (outs : List Nat) :
    sends k args kwargs outs = true ↔ (∀ cls h, k = .create cls h → CanBePut cls) ∧ (∀ x ∈ kwargs, CanBePut x) ∧
      encode (match k with | .create _ _ => .pickledSeq args | _ => .list args) ≠ none := by
  have keys : ∀ s ∈ [['t', 'a', 's', 'k'], ['a', 'r', 'g', 's'], ['k', 'w', 'a', 'r', 'g', 's'], ['o', 'u', 't', 'p', 'u', 't'],
      ['h', 'a', 'n', 'd', 'l', 'e', 'r'], ['c', 'l', 'a', 's', 's']], encode (key s) ≠ none := by
    simp only [List.forall_mem_cons]
    refine ⟨?_, ?_, ?_, ?_, ?_, ?_, ?_⟩ <;> first | (intro h; exact absurd h (by simp [key, encode, surrogate])) | simp
  simp only [List.forall_mem_cons] at keys
  obtain ⟨k1, k2, k3, k4, k5, k6, -⟩ := keys
  have houts : encode (.list (outs.map ref)) ≠ none := by
    rw [encode_list_ne_none]
    intro x hx
    obtain ⟨n, -, rfl⟩ := List.mem_map.1 hx
    exact encode_ref_ne_none n
  unfold sends
  rw [Option.isSome_iff_ne_none]
  unfold CanBePut
  cases k with
  | function t =>
    rw [message, encode_dict_ne_none]
    simp only [List.forall_mem_cons, encode_dict_ne_none (xs := kwargs)]
    exact ⟨fun h => ⟨by simp, h.2.2.2.2.2.1, h.2.2.2.1⟩,
      fun h => ⟨k1, encode_ref_ne_none t, k2, h.2.2, k3, h.2.1, k4, houts, by simp⟩⟩
  | method t a =>
    rw [message, encode_dict_ne_none]
    simp only [List.forall_mem_cons, encode_dict_ne_none (xs := kwargs)]
    exact ⟨fun h => ⟨by simp, h.2.2.2.2.2.1, h.2.2.2.1⟩,
      fun h => ⟨k1, encode_ref_ne_none t, k2, h.2.2, k3, h.2.1, k4, houts, k5, encode_ref_ne_none a, by simp⟩⟩
  | create cls a =>
    rw [message, encode_dict_ne_none]
    simp only [List.forall_mem_cons, encode_dict_ne_none (xs := kwargs)]
    exact ⟨fun h => ⟨by rintro c n ⟨rfl, rfl⟩; exact h.2.1, h.2.2.2.2.2.1, h.2.2.2.1⟩,
      fun h => ⟨k6, h.1 cls a rfl, k2, h.2.2, k3, h.2.1, k5, encode_ref_ne_none a, by simp⟩⟩

/-- Functions and methods can be called with exactly the arguments that can be stored. Missing: constructors. -/
theorem C122_functions_partial (t h : Nat) (args kwargs : List Packing.Obj) (outs : List Nat) :
    (sends (.function t) args kwargs outs = true ↔ ∀ x, x ∈ args ∨ x ∈ kwargs → CanBePut x) ∧
    (sends (.method t h) args kwargs outs = true ↔ ∀ x, x ∈ args ∨ x ∈ kwargs → CanBePut x) := by
  constructor <;>
  · rw [sends_iff, encode_list_ne_none]
    constructor
    · rintro ⟨-, h1, h2⟩ x (hx | hx)
      · exact h2 x hx
      · exact h1 x hx
    · intro h
      exact ⟨by simp, fun x hx => h x (.inr hx), fun x hx => h x (.inl hx)⟩

/-- A constructor can be called exactly if no local function or class and no instance of one is anywhere in a positional argument, and the keyword
arguments can be stored. Missing: the other arguments that can be stored. -/
theorem C122_constructors_partial (cls : Packing.Obj) (h : Nat) (args kwargs : List Packing.Obj) (outs : List Nat) (hc : CanBePut cls) :
    sends (.create cls h) args kwargs outs = true ↔
      (∀ x ∈ args, ∀ f, ¬ Inside (.local f) x) ∧ ∀ x ∈ kwargs, CanBePut x := by
  rw [sends_iff, encode_seq_ne_none, picklesAll_iff]
  constructor
  · rintro ⟨-, h1, h2⟩; exact ⟨fun x hx f => h2 f x hx, h1⟩
  · rintro ⟨h2, h1⟩; exact ⟨by rintro c n ⟨rfl, rfl⟩; exact hc, h1, fun f x hx => h2 x hx f⟩

/-- A local function cannot be given to a constructor, although it can be stored, given to functions and methods, and to constructors by keyword. -/
theorem C122_local_violated : ¬ C122_full ∧
    (∀ f t h cls name outs, CanBePut cls → CanBePut (.local f) ∧ sends (.function t) [.local f] [] outs = true ∧
      sends (.method t h) [.local f] [] outs = true ∧ sends (.create cls h) [] [.text [name % 128], .local f] outs = true ∧
      sends (.create cls h) [.local f] [] outs = false) := by
  have hput : ∀ f, CanBePut (.local f) := fun f => by simp [CanBePut, encode, encodeCustom, isPickle5, isCloud]
  have hno : ∀ f h cls outs, CanBePut cls → sends (.create cls h) [.local f] [] outs = false := by
    intro f h cls outs hc
    rw [← Bool.not_eq_true, C122_constructors_partial _ _ _ _ _ hc]
    rintro ⟨h, -⟩
    exact h (.local f) (by simp) f .self
  constructor
  · intro h
    have := (h (.create (.local 1) 2) [.local 0] [] [] (by rintro cls n ⟨rfl, rfl⟩; exact hput 1)).2 (by rintro x (hx | hx) <;> simp_all)
    rw [hno _ _ _ _ (hput 1)] at this
    cases this
  · intro f t h cls name outs hc
    refine ⟨hput f, ?_, ?_, ?_, hno f h cls outs hc⟩
    · rw [(C122_functions_partial t 0 _ _ _).1]; rintro x (hx | hx) <;> simp_all
    · rw [(C122_functions_partial t h _ _ _).2]; rintro x (hx | hx) <;> simp_all
    · rw [C122_constructors_partial _ _ _ _ _ hc]
      refine ⟨by simp, ?_⟩
      intro x hx
      rcases List.mem_cons.1 hx with rfl | hx
      · have : name % 128 < 128 := Nat.mod_lt _ (by decide)
        simp [CanBePut, encode, surrogate]; omega
      · simp at hx; subst hx; exact hput f

/-- A text with a surrogate can be given to constructors only. -/
theorem C122_text_violated : ¬ CanBePut (.text [0xDC80]) ∧ (∀ t, sends (.function t) [.text [0xDC80]] [] [] = false) ∧
    ∀ n h, sends (.create (.importable n false) h) [.text [0xDC80]] [] [] = true := by
  have h0 : ¬ CanBePut (.text [0xDC80]) := by simp [CanBePut, encode, surrogate]
  refine ⟨h0, fun t => ?_, fun n h => ?_⟩
  · rw [← Bool.not_eq_true, (C122_functions_partial t 0 _ _ _).1]
    exact fun h => h0 (h _ (by simp))
  · rw [C122_constructors_partial (.importable n false) _ _ _ _ (encode_ref_ne_none n)]
    refine ⟨?_, by simp⟩
    intro x hx f hi
    simp at hx; subst hx
    rcases inside_iff.1 hi with hi | ⟨y, hy, _⟩
    · cases hi
    · simp [contents] at hy

/-- What is sent arrives as it was given, whatever is called. -/
theorem C122_arrives (k : CallKind) (args kwargs : List Packing.Obj) (outs : List Nat) :
    arrivesAs k args kwargs outs = if sends k args kwargs outs then some (args, kwargs) else none := by
  unfold arrivesAs sends
  cases hw : encode (message k args kwargs outs) with
  | none => simp
  | some w =>
    have := decode_encode _ w hw
    simp only [this, Option.isSome_some, if_true]
    cases k <;> simp [message]

example : sends (.create (.local 1) 2) [.int 3, .list [.text [97]]] [key ['f'], .local 4] [] = true ∧
    sends (.function 1) [.list [.local 4], .int 3] [key ['f'], .frame [.int 1]] [7] = true ∧
    sends (.create (.local 1) 2) [.list [.local 4]] [] [] = false := by decide

/-- C122: the keys of a message are different, and under `args` and `kwargs` are the arguments, so that the worker finds them by these names. -/
theorem C122_keys (k : CallKind) (args kwargs : List Packing.Obj) (outs : List Nat) :
    ∃ items : List (List Nat × Packing.Obj), message k args kwargs outs = .dict (items.flatMap fun p => [.text p.1, p.2]) ∧
      (items.map (·.1)).Nodup ∧
      (items.lookup [97, 114, 103, 115] = some (.list args) ∨ items.lookup [97, 114, 103, 115] = some (.pickledSeq args)) ∧
      items.lookup [107, 119, 97, 114, 103, 115] = some (.dict kwargs) := by
  cases k with
  | function t =>
    exact ⟨[([116, 97, 115, 107], ref t), ([97, 114, 103, 115], .list args), ([107, 119, 97, 114, 103, 115], .dict kwargs),
      ([111, 117, 116, 112, 117, 116], .list (outs.map ref))], rfl, by simp, .inl rfl, rfl⟩
  | method t h =>
    exact ⟨[([116, 97, 115, 107], ref t), ([97, 114, 103, 115], .list args), ([107, 119, 97, 114, 103, 115], .dict kwargs),
      ([111, 117, 116, 112, 117, 116], .list (outs.map ref)), ([104, 97, 110, 100, 108, 101, 114], ref h)], rfl, by simp, .inl rfl, rfl⟩
  | create cls h =>
    exact ⟨[([99, 108, 97, 115, 115], cls), ([97, 114, 103, 115], .pickledSeq args), ([107, 119, 97, 114, 103, 115], .dict kwargs),
      ([104, 97, 110, 100, 108, 101, 114], ref h)], rfl, by simp, .inr rfl, rfl⟩

example : "args".toList.map Char.toNat = [97, 114, 103, 115] ∧ "kwargs".toList.map Char.toNat = [107, 119, 97, 114, 103, 115] := by decide

end Verif.Props

import Verif.Lemmas.ShmExact

/-! Properties C02, C03 and C06 at the level of the manager: no memory is lost and cleanups touch only what they free. -/
namespace Verif.Props
open Verif.Shm Verif.FreeMemory Verif.Spec

/-- C02 at the level of objects: after any history of reservations, cleanups and metadata writes, a new object is served
whenever the objects that have a reservation leave `n` consecutive bytes and a metadata slot free. In particular the
space of reclaimed objects can be used again. -/
theorem C02_manager_serves_fitting_request (memLen svcLen : Nat) (ops : List HostOp) (h : Host) (ev : List Event)
    (hpos : Positive ops) (hr : (Host.init memLen svcLen).run ops = some (h, ev)) (id : DataId) (n a s : Nat) (hn : 1 ≤ n)
    (hid : h.mgr.get id = none) (ha : a + n ≤ memLen)
    (hgap : ∀ j r x, h.mgr.get j = some r → a ≤ x → x < a + n → ¬ (r.first ≤ x ∧ x < r.last))
    (hs : s + 4 ≤ svcLen)
    (hslot : ∀ j r x, h.mgr.get j = some r → s ≤ x → x < s + 4 → ¬ (r.svc ≤ x ∧ x < r.svc + 4)) :
    ∃ r m', h.mgr.reserve id n = (.ok (r, true), m') ∧ r.last = r.first + n ∧ m'.get id = some r := by
  have hi := minv_run ops hpos (minv_init memLen svcLen) hr
  have he := mexact_run ops hpos (minv_init memLen svcLen) (mexact_init memLen svcLen) hr
  obtain ⟨f, l, r1, h1⟩ := occupy_of_gap hn hi.mem he.mem ha (by
    intro j p x hp hx hx'
    simp only [memLive, Option.map_eq_some_iff] at hp
    obtain ⟨r, hr, rfl⟩ := hp
    exact hgap j r x hr hx hx')
  obtain ⟨q, t, r2, h2⟩ := occupy_of_gap (n := infoSize) (by decide) hi.svc he.svc hs (by
    intro j p x hp hx hx'
    simp only [svcLive, Option.map_eq_some_iff] at hp
    obtain ⟨r, hr, rfl⟩ := hp
    exact hslot j r x hr hx hx')
  have h3 := (ainv_occupy (id := id) hn hi.mem h1).1
  refine ⟨⟨f, l, q⟩, { h.mgr with mem := r1, svc := r2, resv := upd h.mgr.resv id (some ⟨f, l, q⟩) }, ?_, h3, ?_⟩
  · simp only [Mgr.reserve, hid, Mgr.put, h1, h2]
  · simp [Mgr.get, upd_apply]

/-- Two objects fill the memory and the metadata area; after the first was reclaimed there is room for a third. -/
example : ((Host.init 10 8).run [.reserve ⟨0, 1⟩ 5, .reserve ⟨0, 2⟩ 5, .poke 0 0, .poke 1 1, .clear [⟨0, 1⟩] [0]]).map
    (fun p => (p.1.mgr.get ⟨0, 1⟩, p.1.mgr.get ⟨0, 2⟩, (p.1.mgr.reserve ⟨0, 3⟩ 5).1.toOption)) =
    some (none, some ⟨5, 10, 4⟩, some (⟨0, 5, 0⟩, true)) := by decide +kernel

/-- C03 for cleanups: the metadata of every object that keeps its reservation is left as it was. -/
theorem C03_cleanup_keeps_other_metadata (memLen svcLen : Nat) (ops : List HostOp) (h h' : Host) (ev : List Event)
    (hpos : Positive ops) (hr : (Host.init memLen svcLen).run ops = some (h, ev)) (l : List DataId) (refs : List Nat)
    (hc : h.clear l refs = .ok h') (id : DataId) (r : Resv) (h1 : h.mgr.get id = some r) (h2 : h'.mgr.get id = some r) :
    ∀ k, k < 4 → h'.words (r.svc + k) = h.words (r.svc + k) := by
  have hi := minv_run ops hpos (minv_init memLen svcLen) hr
  intro k hk
  exact (clearLoop_freed _ (h := { h with mgr := { h.mgr with pending := [] } })
    ⟨hi.mem, hi.svc, hi.alig, hi.slot⟩ hc).1 id r h1 h2 _ (by omega) (by omega)

/-- C06 for one host: an object loses its reservation only if its metadata slot carries its identity; a slot that holds
something else stops the cleanup instead. -/
theorem C06_reclaims_only_published (memLen svcLen : Nat) (ops : List HostOp) (h h' : Host) (ev : List Event)
    (hpos : Positive ops) (hr : (Host.init memLen svcLen).run ops = some (h, ev)) (l : List DataId) (refs : List Nat)
    (hc : h.clear l refs = .ok h') (id : DataId) (r : Resv) (h1 : h.mgr.get id = some r) (h2 : h'.mgr.get id = none) :
    h.words r.svc = id.rank ∧ h.words (r.svc + 1) = id.num := by
  have hi := minv_run ops hpos (minv_init memLen svcLen) hr
  have := (clearLoop_freed _ (h := { h with mgr := { h.mgr with pending := [] } })
    ⟨hi.mem, hi.svc, hi.alig, hi.slot⟩ hc).2 id r h1 h2
  simpa [checkInfo] using this

/-- Two published objects; reclaiming the first clears its slot only. -/
example : ((Host.init 10 8).run [.reserve ⟨0, 1⟩ 5, .reserve ⟨0, 2⟩ 5, .poke 0 0, .poke 1 1, .poke 4 0, .poke 5 2,
      .clear [⟨0, 1⟩] [0]]).map (fun p => (p.1.mgr.get ⟨0, 1⟩, (List.range 8).map p.1.words)) =
      some (none, [-1, -1, -1, -1, 0, 2, -1, -1]) ∧
    ((Host.init 10 8).run [.reserve ⟨0, 1⟩ 5, .clear [⟨0, 1⟩] [0]]).isNone = true := by
  constructor <;> decide +kernel

end Verif.Props

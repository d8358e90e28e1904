import Verif.Ckpt.Inv
/-! What each step does to the node it touches keeps the invariant of the node. -/
set_option linter.unusedVariables false
set_option linter.unusedSimpArgs false
namespace Verif.Ckpt
variable {V : Type} {v : NV V} {p : Pair V} {t : Nat}

attribute [local grind] Role.disk Role.flagged Role.started Role.fetching Role.removing Role.clear Role.told

macro "local_tac" : tactic => `(tactic| (constructor <;> ((try simp only [Pair.makeClone, Pair.written]) <;> grind)))

theorem g_lock (g : GoodP v p) (hl : p.lock = none) (hr : p.readers = 0) {c : Role} (hc : c = .locked ∨ c = .evQ) :
    GoodP { v with p := some { p with lock := some (.thr t) }, role := c } { p with lock := some (.thr t) } := by
  obtain ⟨g1, g2, g3, g4, g5, g6, g7, g8, g9, g10, g11, g12, g13, g14, g15, g16, g17, g18, g19, g20, g21, g22, g23, g24, g25, g26, g27, g28⟩ := g
  rcases hc with rfl | rfl <;>
  local_tac

theorem g_evLast (g : GoodP v p) (hl : p.lock = none) (hr : p.readers = 0) (hd : p.dirty = false) :
    GoodP { v with p := some { p with lock := some (.thr t) }, role := .evLast } { p with lock := some (.thr t) } := by
  obtain ⟨g1, g2, g3, g4, g5, g6, g7, g8, g9, g10, g11, g12, g13, g14, g15, g16, g17, g18, g19, g20, g21, g22, g23, g24, g25, g26, g27, g28⟩ := g
  local_tac

theorem g_tryDirty (g : GoodP v p) (hl : p.lock = none) (hr : p.readers = 0) (hd : p.dirty = true) (hp : p.pending = false) :
    GoodP { v with p := some { p with lock := some (.thr t) }, role := .held, O := false } { p with lock := some (.thr t) } := by
  obtain ⟨g1, g2, g3, g4, g5, g6, g7, g8, g9, g10, g11, g12, g13, g14, g15, g16, g17, g18, g19, g20, g21, g22, g23, g24, g25, g26, g27, g28⟩ := g
  local_tac

theorem g_dep (g : GoodP v p) (hr : v.role = .held) {dd : Bool} (hd : p.chg = true → dd = true) :
    GoodP { v with p := some p, role := .dep dd } p := by
  obtain ⟨g1, g2, g3, g4, g5, g6, g7, g8, g9, g10, g11, g12, g13, g14, g15, g16, g17, g18, g19, g20, g21, g22, g23, g24, g25, g26, g27, g28⟩ := g
  local_tac

theorem g_bits (g : GoodP v p) (hr : v.role = .locked) :
    GoodP { v with p := some { p with pending := false }, role := .item p.pending false, O := false } { p with pending := false } := by
  obtain ⟨g1, g2, g3, g4, g5, g6, g7, g8, g9, g10, g11, g12, g13, g14, g15, g16, g17, g18, g19, g20, g21, g22, g23, g24, g25, g26, g27, g28⟩ := g
  local_tac

theorem g_bitsDep (g : GoodP v p) {dd : Bool} (hr : v.role = .dep dd) :
    GoodP { v with p := some { p with pending := false }, role := .item p.pending dd, O := false } { p with pending := false } := by
  obtain ⟨g1, g2, g3, g4, g5, g6, g7, g8, g9, g10, g11, g12, g13, g14, g15, g16, g17, g18, g19, g20, g21, g22, g23, g24, g25, g26, g27, g28⟩ := g
  local_tac

theorem g_bitsHeld (g : GoodP v p) {dd : Bool} (hr : v.role = .held) (hd : p.chg = true → dd = true) :
    GoodP { v with p := some { p with pending := false }, role := .item p.pending dd, O := false } { p with pending := false } := by
  obtain ⟨g1, g2, g3, g4, g5, g6, g7, g8, g9, g10, g11, g12, g13, g14, g15, g16, g17, g18, g19, g20, g21, g22, g23, g24, g25, g26, g27, g28⟩ := g
  local_tac

theorem g_skip (g : GoodP v p) {f dd : Bool} (hr : v.role = .item f dd) (hf : (f && (p.dirty || dd)) = false) :
    GoodP { v with p := some { p with dirty := p.dirty || dd }, role := .held } { p with dirty := p.dirty || dd } := by
  obtain ⟨g1, g2, g3, g4, g5, g6, g7, g8, g9, g10, g11, g12, g13, g14, g15, g16, g17, g18, g19, g20, g21, g22, g23, g24, g25, g26, g27, g28⟩ := g
  have h12 := g12 dd (by rw [hr]; rfl)
  local_tac

theorem g_take (g : GoodP v p) {f dd : Bool} (hr : v.role = .item f dd) (hf : (f && (p.dirty || dd)) = true) (hd : p.disk = none) (hl : p.lock = some (.thr t)) :
    GoodP { v with p := some { p with dirty := p.dirty || dd, disk := some (.thr t) }, role := .hold } { p with dirty := p.dirty || dd, disk := some (.thr t) } := by
  obtain ⟨g1, g2, g3, g4, g5, g6, g7, g8, g9, g10, g11, g12, g13, g14, g15, g16, g17, g18, g19, g20, g21, g22, g23, g24, g25, g26, g27, g28⟩ := g
  local_tac

theorem g_clone (g : GoodP v p) (hr : v.role = .hold) :
    GoodP { v with p := some p.makeClone, role := .held, inJob := true } p.makeClone := by
  obtain ⟨g1, g2, g3, g4, g5, g6, g7, g8, g9, g10, g11, g12, g13, g14, g15, g16, g17, g18, g19, g20, g21, g22, g23, g24, g25, g26, g27, g28⟩ := g
  local_tac

theorem g_write (g : GoodP v p) (hr : v.role = .hold) :
    GoodP { v with p := some { p with chg := false }, role := .wrote, cur := p.val, inp := p.val } { p with chg := false } := by
  obtain ⟨g1, g2, g3, g4, g5, g6, g7, g8, g9, g10, g11, g12, g13, g14, g15, g16, g17, g18, g19, g20, g21, g22, g23, g24, g25, g26, g27, g28⟩ := g
  local_tac

theorem g_wrote (g : GoodP v p) (hr : v.role = .wrote) :
    GoodP { v with p := some p.written, role := .held } p.written := by
  obtain ⟨g1, g2, g3, g4, g5, g6, g7, g8, g9, g10, g11, g12, g13, g14, g15, g16, g17, g18, g19, g20, g21, g22, g23, g24, g25, g26, g27, g28⟩ := g
  local_tac

theorem g_fetch (g : GoodP v p) {k : Bool} (hr : v.role = .fetch k) (hd : p.disk = none) (hl : p.lock = some (.thr t)) :
    GoodP { v with p := some { p with disk := some (.thr t) }, role := .fetchD k } { p with disk := some (.thr t) } := by
  obtain ⟨g1, g2, g3, g4, g5, g6, g7, g8, g9, g10, g11, g12, g13, g14, g15, g16, g17, g18, g19, g20, g21, g22, g23, g24, g25, g26, g27, g28⟩ := g
  local_tac

theorem g_fetched (g : GoodP v p) (hr : v.role = .fetchD true) {x : V} (hx : v.cur = some x) {d : Bool} :
    GoodP { v with p := some { p with val := some x, dirty := p.dirty || d, disk := none }, role := .held } { p with val := some x, dirty := p.dirty || d, disk := none } := by
  obtain ⟨g1, g2, g3, g4, g5, g6, g7, g8, g9, g10, g11, g12, g13, g14, g15, g16, g17, g18, g19, g20, g21, g22, g23, g24, g25, g26, g27, g28⟩ := g
  local_tac

theorem g_fetchedFree (g : GoodP v p) (hr : v.role = .fetchD false) {x : V} (hx : v.cur = some x) {d : Bool} :
    GoodP { v with p := some { p with val := some x, dirty := p.dirty || d, disk := none, lock := none }, role := .free } { p with val := some x, dirty := p.dirty || d, disk := none, lock := none } := by
  obtain ⟨g1, g2, g3, g4, g5, g6, g7, g8, g9, g10, g11, g12, g13, g14, g15, g16, g17, g18, g19, g20, g21, g22, g23, g24, g25, g26, g27, g28⟩ := g
  local_tac

theorem g_modify (g : GoodP v p) (hr : v.role = .held) {x : V} :
    GoodP { v with p := some { p with val := some x, chg := true }, L := some x, B := if v.O = true then some x else v.B } { p with val := some x, chg := true } := by
  obtain ⟨g1, g2, g3, g4, g5, g6, g7, g8, g9, g10, g11, g12, g13, g14, g15, g16, g17, g18, g19, g20, g21, g22, g23, g24, g25, g26, g27, g28⟩ := g
  local_tac

theorem g_unpin (g : GoodP v p) (hr : v.role = .held) {d : Bool} (hd : p.chg = true → d = true) :
    GoodP { v with p := some { p with dirty := p.dirty || d, lock := none }, role := .free } { p with dirty := p.dirty || d, lock := none } := by
  obtain ⟨g1, g2, g3, g4, g5, g6, g7, g8, g9, g10, g11, g12, g13, g14, g15, g16, g17, g18, g19, g20, g21, g22, g23, g24, g25, g26, g27, g28⟩ := g
  local_tac

theorem g_remove (g : GoodP v p) (hr : v.role = .held) :
    GoodP { v with p := some { p with dirty := false }, role := .rem } { p with dirty := false } := by
  obtain ⟨g1, g2, g3, g4, g5, g6, g7, g8, g9, g10, g11, g12, g13, g14, g15, g16, g17, g18, g19, g20, g21, g22, g23, g24, g25, g26, g27, g28⟩ := g
  local_tac

theorem g_rem (g : GoodP v p) (hr : v.role = .rem) (hd : p.disk = none) (hl : p.lock = some (.thr t)) :
    GoodP { v with p := some { p with disk := some (.thr t) }, role := .remD } { p with disk := some (.thr t) } := by
  obtain ⟨g1, g2, g3, g4, g5, g6, g7, g8, g9, g10, g11, g12, g13, g14, g15, g16, g17, g18, g19, g20, g21, g22, g23, g24, g25, g26, g27, g28⟩ := g
  local_tac

theorem g_remD (g : GoodP v p) (hr : v.role = .remD) : GoodN { v with p := none, role := .free, cur := none, inp := if p.pending = true then none else v.inp, L := none, B := if v.O = true then none else v.B, inPl := false } := by
  obtain ⟨g1, g2, g3, g4, g5, g6, g7, g8, g9, g10, g11, g12, g13, g14, g15, g16, g17, g18, g19, g20, g21, g22, g23, g24, g25, g26, g27, g28⟩ := g
  local_tac

theorem g_readers (g : GoodP v p) (hl : p.lock = none) {r : Nat} :
    GoodP { v with p := some { p with readers := r }, O := v.O } { p with readers := r } := by
  obtain ⟨g1, g2, g3, g4, g5, g6, g7, g8, g9, g10, g11, g12, g13, g14, g15, g16, g17, g18, g19, g20, g21, g22, g23, g24, g25, g26, g27, g28⟩ := g
  local_tac

theorem g_evQ (g : GoodP v p) (hr : v.role = .evQ) :
    GoodP { v with p := some { p with pending := false }, role := .evGo p.pending } { p with pending := false } := by
  obtain ⟨g1, g2, g3, g4, g5, g6, g7, g8, g9, g10, g11, g12, g13, g14, g15, g16, g17, g18, g19, g20, g21, g22, g23, g24, g25, g26, g27, g28⟩ := g
  local_tac

theorem g_evGo (g : GoodP v p) {f : Bool} (hr : v.role = .evGo f) (hd : p.disk = none) (hl : p.lock = some (.thr t)) (hy : p.dirty = true) :
    GoodP { v with p := some { p with disk := some (.thr t) }, role := .evHold f } { p with disk := some (.thr t) } := by
  obtain ⟨g1, g2, g3, g4, g5, g6, g7, g8, g9, g10, g11, g12, g13, g14, g15, g16, g17, g18, g19, g20, g21, g22, g23, g24, g25, g26, g27, g28⟩ := g
  local_tac

theorem g_evGoClean (g : GoodP v p) {f : Bool} (hr : v.role = .evGo f) (hy : p.dirty = false) :
    GoodP { v with p := some p, role := .evLast } p := by
  obtain ⟨g1, g2, g3, g4, g5, g6, g7, g8, g9, g10, g11, g12, g13, g14, g15, g16, g17, g18, g19, g20, g21, g22, g23, g24, g25, g26, g27, g28⟩ := g
  have h12 := g12 false (by rw [hr]; rfl)
  local_tac

theorem g_evHold (g : GoodP v p) {f : Bool} (hr : v.role = .evHold f) :
    GoodP { v with p := some { p with chg := false }, role := .evWrote f, cur := p.val, inp := if f = true then p.val else v.inp } { p with chg := false } := by
  obtain ⟨g1, g2, g3, g4, g5, g6, g7, g8, g9, g10, g11, g12, g13, g14, g15, g16, g17, g18, g19, g20, g21, g22, g23, g24, g25, g26, g27, g28⟩ := g
  local_tac

theorem g_evWrote (g : GoodP v p) {f : Bool} (hr : v.role = .evWrote f) :
    GoodP { v with p := some p.written, role := .evLast } p.written := by
  obtain ⟨g1, g2, g3, g4, g5, g6, g7, g8, g9, g10, g11, g12, g13, g14, g15, g16, g17, g18, g19, g20, g21, g22, g23, g24, g25, g26, g27, g28⟩ := g
  local_tac

theorem g_evRm (g : GoodP v p) (hr : v.role = .evLast) (hd : p.disk = none) (hl : p.lock = some (.thr t)) :
    GoodP { v with p := some { p with disk := some (.thr t) }, role := .evRm } { p with disk := some (.thr t) } := by
  obtain ⟨g1, g2, g3, g4, g5, g6, g7, g8, g9, g10, g11, g12, g13, g14, g15, g16, g17, g18, g19, g20, g21, g22, g23, g24, g25, g26, g27, g28⟩ := g
  local_tac

theorem g_evKeep (g : GoodP v p) (hr : v.role = .evRm) :
    GoodP { v with p := some { p with lock := none, disk := none }, role := .free } { p with lock := none, disk := none } := by
  obtain ⟨g1, g2, g3, g4, g5, g6, g7, g8, g9, g10, g11, g12, g13, g14, g15, g16, g17, g18, g19, g20, g21, g22, g23, g24, g25, g26, g27, g28⟩ := g
  local_tac

theorem g_evDrop (g : GoodP v p) (hr : v.role = .evRm) : GoodN { v with p := none, role := .free, inPl := false } := by
  obtain ⟨g1, g2, g3, g4, g5, g6, g7, g8, g9, g10, g11, g12, g13, g14, g15, g16, g17, g18, g19, g20, g21, g22, g23, g24, g25, g26, g27, g28⟩ := g
  have h12 := g12 false (by rw [hr]; rfl)
  local_tac

theorem g_job (g : GoodP v p) (hd : p.disk = some .job) {x : V} (hx : p.clone = some x) :
    GoodP { v with p := some { p with clone := none }, cur := some x, inp := some x } { p with clone := none } := by
  obtain ⟨g1, g2, g3, g4, g5, g6, g7, g8, g9, g10, g11, g12, g13, g14, g15, g16, g17, g18, g19, g20, g21, g22, g23, g24, g25, g26, g27, g28⟩ := g
  local_tac

theorem g_jobDone (g : GoodP v p) (hd : p.disk = some .job) (hx : p.clone = none) :
    GoodP { v with p := some { p with disk := none }, inJob := false } { p with disk := none } := by
  obtain ⟨g1, g2, g3, g4, g5, g6, g7, g8, g9, g10, g11, g12, g13, g14, g15, g16, g17, g18, g19, g20, g21, g22, g23, g24, g25, g26, g27, g28⟩ := g
  local_tac

theorem g_cpTake (g : GoodP v p) (hl : p.lock = none) (hr : p.readers = 0) (hrun : v.run = true) {b : Bool} :
    GoodP { v with p := some { p with lock := some .cp }, role := .cpu, at_ := .look, inPl := b } { p with lock := some .cp } := by
  obtain ⟨g1, g2, g3, g4, g5, g6, g7, g8, g9, g10, g11, g12, g13, g14, g15, g16, g17, g18, g19, g20, g21, g22, g23, g24, g25, g26, g27, g28⟩ := g
  local_tac

theorem g_cpHold (g : GoodP v p) (ha : v.at_ = .look) (hy : p.dirty = true) (hp : p.pending = true) (hd : p.disk = none) :
    GoodP { v with p := some { p with disk := some .cp }, at_ := .hold } { p with disk := some .cp } := by
  obtain ⟨g1, g2, g3, g4, g5, g6, g7, g8, g9, g10, g11, g12, g13, g14, g15, g16, g17, g18, g19, g20, g21, g22, g23, g24, g25, g26, g27, g28⟩ := g
  local_tac

theorem g_cpSkip (g : GoodP v p) (ha : v.at_ = .look) (hy : (p.dirty && p.pending) = false) :
    GoodP { v with p := some { p with pending := false, lock := none }, at_ := .no, role := .free } { p with pending := false, lock := none } := by
  obtain ⟨g1, g2, g3, g4, g5, g6, g7, g8, g9, g10, g11, g12, g13, g14, g15, g16, g17, g18, g19, g20, g21, g22, g23, g24, g25, g26, g27, g28⟩ := g
  have h12 := g12 false (by rw [g3.2 (by grind)]; rfl)
  local_tac

theorem g_cpClone (g : GoodP v p) (ha : v.at_ = .hold) :
    GoodP { v with p := some { p.makeClone with pending := false, lock := none }, at_ := .no, role := .free, inJob := true } { p.makeClone with pending := false, lock := none } := by
  obtain ⟨g1, g2, g3, g4, g5, g6, g7, g8, g9, g10, g11, g12, g13, g14, g15, g16, g17, g18, g19, g20, g21, g22, g23, g24, g25, g26, g27, g28⟩ := g
  local_tac

theorem g_cpWrite (g : GoodP v p) (ha : v.at_ = .hold) :
    GoodP { v with p := some { p with chg := false }, at_ := .wrote, cur := p.val, inp := p.val } { p with chg := false } := by
  obtain ⟨g1, g2, g3, g4, g5, g6, g7, g8, g9, g10, g11, g12, g13, g14, g15, g16, g17, g18, g19, g20, g21, g22, g23, g24, g25, g26, g27, g28⟩ := g
  local_tac

theorem g_cpWrote (g : GoodP v p) (ha : v.at_ = .wrote) :
    GoodP { v with p := some { p.written with pending := false, lock := none }, at_ := .no, role := .free } { p.written with pending := false, lock := none } := by
  obtain ⟨g1, g2, g3, g4, g5, g6, g7, g8, g9, g10, g11, g12, g13, g14, g15, g16, g17, g18, g19, g20, g21, g22, g23, g24, g25, g26, g27, g28⟩ := g
  local_tac

theorem g_beginIncl (g : GoodP v p) (h1 : v.run = false) (h2 : v.hdr = false) (hg : ∀ f, v.role ≠ .evGo f ∧ v.role ≠ .evHold f ∧ v.role ≠ .evWrote f) :
    GoodP { v with p := some { p with pending := true }, run := true, incl := true, inPl := true, inp := v.cur, B := v.L, O := true } { p with pending := true } := by
  obtain ⟨g1, g2, g3, g4, g5, g6, g7, g8, g9, g10, g11, g12, g13, g14, g15, g16, g17, g18, g19, g20, g21, g22, g23, g24, g25, g26, g27, g28⟩ := g
  have hcl : v.role.clear = true → v.role.flagged = true := by
    cases e : v.role <;> simp_all [Role.clear, Role.flagged]
  local_tac

theorem g_begin (g : GoodP v p) (h1 : v.run = false) (h2 : v.hdr = false) {b : Bool} :
    GoodP { v with p := some p, run := true, incl := false, inPl := b, B := v.L, O := true } p := by
  obtain ⟨g1, g2, g3, g4, g5, g6, g7, g8, g9, g10, g11, g12, g13, g14, g15, g16, g17, g18, g19, g20, g21, g22, g23, g24, g25, g26, g27, g28⟩ := g
  local_tac

theorem g_finish (g : GoodP v p) (h1 : v.run = true) (ha : v.at_ = .no) (h2 : v.inPl = false) (h3 : v.inJob = false) :
    GoodP { v with p := some p, run := false, hdr := true } p := by
  obtain ⟨g1, g2, g3, g4, g5, g6, g7, g8, g9, g10, g11, g12, g13, g14, g15, g16, g17, g18, g19, g20, g21, g22, g23, g24, g25, g26, g27, g28⟩ := g
  local_tac

theorem g_end (g : GoodP v p) (h2 : v.hdr = true) :
    GoodP { v with p := some p, hdr := false } p := by
  obtain ⟨g1, g2, g3, g4, g5, g6, g7, g8, g9, g10, g11, g12, g13, g14, g15, g16, g17, g18, g19, g20, g21, g22, g23, g24, g25, g26, g27, g28⟩ := g
  local_tac

/-- A node read from disk. -/
theorem g_insert (g : GoodN v) (hp : v.p = none) (hL : v.L ≠ none) (hh : v.hdr = true → v.run = false) {k : Bool} :
    GoodP { v with p := some ⟨none, false, false, false, none, some (.thr t), 0, none⟩, role := .fetch k, O := if k = true then false else v.O } ⟨none, false, false, false, none, some (.thr t), 0, none⟩ := by
  obtain ⟨g1, g2, g3, g4, g5⟩ := g
  cases k <;> local_tac

/-- A new node. -/
theorem g_put (g : GoodN v) (hp : v.p = none) (hL : v.L = none) (hh : v.hdr = true → v.run = false) {x : V} :
    GoodP { v with p := some ⟨some x, true, true, false, none, some (.thr t), 0, none⟩, role := .held, O := false, L := some x } ⟨some x, true, true, false, none, some (.thr t), 0, none⟩ := by
  obtain ⟨g1, g2, g3, g4, g5⟩ := g
  local_tac

end Verif.Ckpt

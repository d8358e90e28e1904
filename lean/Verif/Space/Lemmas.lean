import Verif.Space.Spec

namespace Verif.Space

def zoneL (z : Int) (l : List Fs) : Zone := if inRed z l ≠ 0 then .red else if inYellow z l ≠ 0 then .yellow else .green

def pollZ (e : Env) (z : Zone) : Env × Option Zone :=
  ({ e with seq := e.seq + 1, zone := z,
            lastRed := if z = .red ∧ e.zone ≠ .red then e.seq + 1 else e.lastRed,
            lastYellow := if z = .yellow ∧ e.zone = .green then e.seq + 1 else e.lastYellow },
   if z = .red ∧ e.zone ≠ .red ∧ (e.seq + 1 - e.lastRed > 12 ∨ e.seq + 1 < 12) then some .red
   else if z = .yellow ∧ e.zone = .green ∧ (e.seq + 1 - e.lastYellow > 12 ∨ e.seq + 1 < 12) then some .yellow
   else none)

theorem pollZone_eq (e : Env) (l : List Fs) : pollZone e l = pollZ e (zoneL e.redzone l) := by
  obtain ⟨o, z, s, r, y, rz, c⟩ := e
  unfold pollZone pollZ zoneL
  simp only
  cases z <;> by_cases h1 : inRed rz l = 0 <;> by_cases h2 : inYellow rz l = 0 <;> simp [h1, h2]

theorem filter_ne {α} (p : α → Bool) (l : List α) : (l.filter p).length ≠ 0 ↔ ∃ a ∈ l, p a = true := by
  rw [Ne, List.length_eq_zero_iff, List.filter_eq_nil_iff]
  constructor
  · intro h
    apply Classical.byContradiction
    intro hn
    exact h fun a ha hp => hn ⟨a, ha, hp⟩
  · intro ⟨a, ha, hp⟩ h
    exact h a ha hp

theorem looked_mem {d : Dirs} {n} : n ∈ looked d ↔ n = d.home ∨ n = d.data ∨ n = d.log := by
  unfold looked
  by_cases h1 : d.home = d.data <;> by_cases h2 : d.home = d.log <;> by_cases h3 : d.data = d.log <;> simp_all <;> grind

theorem limit_sane {z t : Nat} (h : t * z < 18446744073709551616) (hz : z < 18446744073709551616) : limit z t = t * z / 100 := by
  unfold limit
  have : ((z : Int) % 18446744073709551616).toNat = z := by omega
  rw [this, Nat.mod_eq_of_lt h]

theorem zoneL_found {d : Dirs} {z : Nat} {f : Nat → Fs} (hs : Sane z f) (hz : z < 18446744073709551616) :
    zoneL z ((looked d).map f) = found d z f := by
  have key : ∀ k, (∃ a ∈ (looked d).map f, decide (a.avail < k * limit z a.total) = true) ↔ Low d k z f := by
    intro k
    constructor
    · intro ⟨a, ha, hl⟩
      obtain ⟨n, hn, rfl⟩ := List.mem_map.mp ha
      exact ⟨n, looked_mem.mp hn, by rw [limit_sane (hs n) hz] at hl; exact of_decide_eq_true hl⟩
    · intro ⟨n, hn, hl⟩
      exact ⟨f n, List.mem_map.mpr ⟨n, looked_mem.mpr hn, rfl⟩, by rw [limit_sane (hs n) hz]; exact decide_eq_true hl⟩
  have hr : inRed z ((looked d).map f) ≠ 0 ↔ Low d 1 z f := by
    rw [← key 1]; unfold inRed
    simp only [Nat.one_mul]
    exact filter_ne _ _
  have hy : inYellow z ((looked d).map f) ≠ 0 ↔ Low d 2 z f := by
    rw [← key 2]; unfold inYellow
    exact filter_ne _ _
  unfold zoneL found
  by_cases h1 : Low d 1 z f
  · rw [if_pos (hr.mpr h1), if_pos h1]
  · rw [if_neg (fun h => h1 (hr.mp h)), if_neg h1]
    by_cases h2 : Low d 2 z f
    · rw [if_pos (hy.mpr h2), if_pos h2]
    · rw [if_neg (fun h => h2 (hy.mp h)), if_neg h2]

/-- A history as to the looks only. -/
def fold (e : Env) : List Zone → Env
  | [] => e
  | z :: zs => fold (pollZ e z).1 zs

def warns (e : Env) : List Zone → List (Option Zone)
  | [] => []
  | z :: zs => (pollZ e z).2 :: warns (pollZ e z).1 zs

/-- The same but for the counter, `opened` and the share. -/
def Like (a b : Env) : Prop := a.zone = b.zone ∧ a.seq = b.seq ∧ a.lastRed = b.lastRed ∧ a.lastYellow = b.lastYellow

theorem pollZ_like {a b z} (h : Like a b) : Like (pollZ a z).1 (pollZ b z).1 ∧ (pollZ a z).2 = (pollZ b z).2 := by
  obtain ⟨h1, h2, h3, h4⟩ := h
  unfold pollZ Like
  simp only [h1, h2, h3, h4, and_self]

theorem fold_like {zs} : ∀ {a b}, Like a b → Like (fold a zs) (fold b zs) ∧ warns a zs = warns b zs := by
  induction zs with
  | nil => intro a b h; exact ⟨h, rfl⟩
  | cons z zs ih =>
    intro a b h
    have := pollZ_like (z := z) h
    exact ⟨(ih this.1).1, by unfold warns; rw [this.2, (ih this.1).2]⟩

def zonesOf (d : Dirs) (z : Int) (l : List (Nat → Fs)) : List Zone := l.map fun f => zoneL z ((looked d).map f)

theorem run_opened {d vs} : ∀ {e : Env}, e.opened = true →
    Like (run d e vs).1 (fold e (zonesOf d e.redzone (looks true vs))) ∧
    warnings (run d e vs).2 = warns e (zonesOf d e.redzone (looks true vs)) := by
  induction vs with
  | nil => intro e _; exact ⟨⟨rfl, rfl, rfl, rfl⟩, rfl⟩
  | cons v vs ih =>
    intro e ho
    cases v with
    | setRedzone z =>
      have es : step d e (.setRedzone z) = (e, .einval) := by unfold step; simp only [if_pos ho]
      unfold run; rw [es]; exact ih ho
    | openEnv f =>
      have es : step d e (.openEnv f) = (e, .einval) := by unfold step; simp only [if_pos ho]
      unfold run; rw [es]; exact ih ho
    | look f =>
      have es : step d e (.look f) = ((pollZ e (zoneL e.redzone ((looked d).map f))).1, .warned (pollZ e (zoneL e.redzone ((looked d).map f))).2) := by
        unfold step; simp only [if_pos ho, poll, pollZone_eq]
      have := ih (e := (pollZ e (zoneL e.redzone ((looked d).map f))).1) ho
      unfold run; rw [es]
      exact ⟨this.1, by show _ :: _ = _ :: _; rw [this.2]; rfl⟩
    | call op =>
      by_cases hc : checked op = true
      · by_cases hr : e.zone = .red
        · have es : step d e (.call op) = ({ e with ctr := e.ctr + 1 }, .enospc) := by unfold step; simp only [if_pos hc, if_pos hr]
          have := ih (e := { e with ctr := e.ctr + 1 }) ho
          have l := fold_like (zs := zonesOf d e.redzone (looks true vs)) (a := { e with ctr := e.ctr + 1 }) (b := e) ⟨rfl, rfl, rfl, rfl⟩
          unfold run; rw [es]
          obtain ⟨⟨a1, a2, a3, a4⟩, a5⟩ := this
          obtain ⟨⟨b1, b2, b3, b4⟩, b5⟩ := l
          exact ⟨⟨a1.trans b1, a2.trans b2, a3.trans b3, a4.trans b4⟩, a5.trans b5⟩
        · have es : step d e (.call op) = (e, .goes) := by unfold step; simp only [if_pos hc, if_neg hr]
          unfold run; rw [es]; exact ih ho
      · have es : step d e (.call op) = (e, .goes) := by unfold step; simp only [if_neg hc]
        unfold run; rw [es]; exact ih ho

theorem run_closed {d vs} : ∀ {e : Env}, e.opened = false → e.zone = .green →
    Like (run d e vs).1 (fold e (zonesOf d (share e.redzone vs) (looks false vs))) ∧
    warnings (run d e vs).2 = warns e (zonesOf d (share e.redzone vs) (looks false vs)) := by
  induction vs with
  | nil => intro e _ _; exact ⟨⟨rfl, rfl, rfl, rfl⟩, rfl⟩
  | cons v vs ih =>
    intro e ho hz
    have hno : ¬ e.opened = true := by rw [ho]; decide
    cases v with
    | setRedzone z =>
      have es : step d e (.setRedzone z) = ({ e with redzone := z }, .goes) := by unfold step; simp only [if_neg hno]
      have := ih (e := { e with redzone := z }) ho hz
      have l := fold_like (zs := zonesOf d (share z vs) (looks false vs)) (a := { e with redzone := z }) (b := e) ⟨rfl, rfl, rfl, rfl⟩
      unfold run; rw [es]
      obtain ⟨⟨a1, a2, a3, a4⟩, a5⟩ := this
      obtain ⟨⟨b1, b2, b3, b4⟩, b5⟩ := l
      exact ⟨⟨a1.trans b1, a2.trans b2, a3.trans b3, a4.trans b4⟩, a5.trans b5⟩
    | openEnv f =>
      have es : step d e (.openEnv f) = ((pollZ { e with opened := true } (zoneL e.redzone ((looked d).map f))).1,
          .warned (pollZ { e with opened := true } (zoneL e.redzone ((looked d).map f))).2) := by
        unfold step; simp only [if_neg hno, poll, pollZone_eq]
      have := run_opened (d := d) (vs := vs) (e := (pollZ { e with opened := true } (zoneL e.redzone ((looked d).map f))).1) rfl
      have l := fold_like (zs := zonesOf d e.redzone (looks true vs))
        (pollZ_like (a := { e with opened := true }) (b := e) (z := zoneL e.redzone ((looked d).map f)) ⟨rfl, rfl, rfl, rfl⟩).1
      have l2 := (pollZ_like (a := { e with opened := true }) (b := e) (z := zoneL e.redzone ((looked d).map f)) ⟨rfl, rfl, rfl, rfl⟩).2
      unfold run; rw [es]
      obtain ⟨⟨a1, a2, a3, a4⟩, a5⟩ := this
      obtain ⟨⟨b1, b2, b3, b4⟩, b5⟩ := l
      refine ⟨⟨a1.trans b1, a2.trans b2, a3.trans b3, a4.trans b4⟩, ?_⟩
      show _ :: _ = _ :: _
      rw [a5, l2]
      exact congrArg _ b5
    | look f =>
      have es : step d e (.look f) = (e, .goes) := by unfold step; simp only [if_neg hno]
      unfold run; rw [es]; exact ih ho hz
    | call op =>
      have es : step d e (.call op) = (e, .goes) := by
        unfold step
        have hr : ¬ e.zone = .red := by rw [hz]; decide
        simp only [if_neg hr, ite_self]
      unfold run; rw [es]; exact ih ho hz

theorem fold_append {a b} : ∀ {e}, fold e (a ++ b) = fold (fold e a) b := by
  induction a with
  | nil => intro e; rfl
  | cons z zs ih => intro e; exact ih

theorem warns_get {zs} : ∀ {e j z}, zs[j]? = some z → (warns e zs)[j]? = some (pollZ (fold e (zs.take j)) z).2 := by
  induction zs with
  | nil => intro e j z h; cases h
  | cons y zs ih =>
    intro e j z h
    cases j with
    | zero => cases h; rfl
    | succ j => exact ih (e := (pollZ e y).1) h

theorem warns_length {zs} : ∀ {e}, (warns e zs).length = zs.length := by
  induction zs with
  | nil => intro e; rfl
  | cons y zs ih => intro e; exact congrArg (· + 1) ih

/-- The last entry. -/
def LastOf (P : Nat → Prop) (n m : Nat) : Prop := m ≤ n ∧ (m = 0 ∨ P m) ∧ ∀ i, P i → i ≤ n → i ≤ m

theorem inv {zs : List Zone} {j} (h : j ≤ zs.length) :
    (fold fresh (zs.take j)).seq = j ∧ (Zone.green :: zs)[j]? = some (fold fresh (zs.take j)).zone ∧
    LastOf (Enters .red (· ≠ .red) zs) j (fold fresh (zs.take j)).lastRed ∧
    LastOf (Enters .yellow (· = .green) zs) j (fold fresh (zs.take j)).lastYellow := by
  induction j with
  | zero =>
    refine ⟨rfl, rfl, ⟨Nat.le_refl _, .inl rfl, ?_⟩, ⟨Nat.le_refl _, .inl rfl, ?_⟩⟩ <;>
      · intro i ⟨k, z, e, _⟩ hi; omega
  | succ j ih =>
    obtain ⟨i1, i2, i3, i4⟩ := ih (by omega)
    have hj : j < zs.length := h
    have ht : zs.take (j + 1) = zs.take j ++ [zs[j]] := (List.take_append_getElem hj).symm
    have hg : zs[j]? = some zs[j] := List.getElem?_eq_getElem hj
    rw [ht, fold_append]
    generalize fold fresh (zs.take j) = e at i1 i2 i3 i4 ⊢
    generalize zs[j] = z at hg
    have go : ∀ (r : Zone) (P : Zone → Prop) [Decidable (z = r ∧ P e.zone)] (m : Nat), LastOf (Enters r P zs) j m →
        LastOf (Enters r P zs) (j + 1) (if z = r ∧ P e.zone then j + 1 else m) := by
      intro r P _ m ⟨m1, m2, m3⟩
      by_cases hc : z = r ∧ P e.zone
      · rw [if_pos hc]
        exact ⟨Nat.le_refl _, .inr ⟨j, e.zone, rfl, by rw [hg, hc.1], i2, hc.2⟩, fun i _ hi => hi⟩
      · rw [if_neg hc]
        refine ⟨by omega, m2, fun i hi hle => ?_⟩
        by_cases he : i = j + 1
        · subst he
          obtain ⟨k, z', e1, e2, e3, e4⟩ := hi
          have : k = j := by omega
          subst this
          rw [hg] at e2; cases e2
          rw [i2] at e3; cases e3
          exact absurd ⟨rfl, e4⟩ hc
        · exact m3 i hi (by omega)
    refine ⟨by show e.seq + 1 = j + 1; omega, hg, ?_, ?_⟩
    · show LastOf _ _ (if z = .red ∧ e.zone ≠ .red then e.seq + 1 else e.lastRed)
      rw [i1]
      exact go .red (· ≠ .red) _ i3
    · show LastOf _ _ (if z = .yellow ∧ e.zone = .green then e.seq + 1 else e.lastYellow)
      rw [i1]
      exact go .yellow (· = .green) _ i4

theorem enters_iff {r P zs i e z} (hi : zs[i]? = some z) (hp : (Zone.green :: zs)[i]? = some e) :
    Enters r P zs (i + 1) ↔ z = r ∧ P e := by
  constructor
  · intro ⟨k, z', e1, e2, e3, e4⟩
    have : k = i := by omega
    subst this
    rw [hi] at e2; cases e2
    rw [hp] at e3; cases e3
    exact ⟨rfl, e4⟩
  · intro ⟨e1, e2⟩
    exact ⟨i, e, rfl, by rw [hi, e1], hp, e2⟩

theorem lastOf_far {P : Nat → Prop} {j m} (h : LastOf P j m) : (j + 1 - m > 12 ∨ j + 1 < 12) ↔
    (j + 1 < 12 ∨ 12 < j + 1 ∧ ∀ k, P k → k < j + 1 → k + 12 < j + 1) := by
  obtain ⟨h1, h2, h3⟩ := h
  constructor
  · intro hc
    rcases hc with hc | hc
    · refine .inr ⟨by omega, fun k hk hl => ?_⟩
      have := h3 k hk (by omega)
      omega
    · exact .inl hc
  · intro hc
    rcases hc with hc | ⟨hc, hd⟩
    · exact .inr hc
    · left
      rcases h2 with h2 | h2
      · omega
      · have := hd m h2 (by omega)
        omega

theorem warns_spec {zs : List Zone} {i w} (h : (warns fresh zs)[i]? = some w) :
    (w = some .red ↔ Warned .red (· ≠ .red) zs (i + 1)) ∧ (w = some .yellow ↔ Warned .yellow (· = .green) zs (i + 1)) ∧ w ≠ some .green := by
  have hlen : i < zs.length := by
    have := (List.getElem?_eq_some_iff.mp h).1
    rw [warns_length] at this; exact this
  have hg : zs[i]? = some zs[i] := List.getElem?_eq_getElem hlen
  rw [warns_get hg] at h
  obtain ⟨i1, i2, i3, i4⟩ := inv (zs := zs) (j := i) (by omega)
  generalize fold fresh (zs.take i) = e at h i1 i2 i3 i4
  generalize zs[i] = z at h hg
  have f1 := lastOf_far i3
  have f2 := lastOf_far i4
  unfold pollZ at h
  simp only [Option.some.injEq] at h
  rw [i1] at h
  unfold Warned
  rw [enters_iff hg i2, enters_iff hg i2, ← f1, ← f2]
  by_cases hA : z = .red ∧ e.zone ≠ .red ∧ (i + 1 - e.lastRed > 12 ∨ i + 1 < 12)
  · rw [if_pos hA] at h
    subst h
    refine ⟨⟨fun _ => ⟨⟨hA.1, hA.2.1⟩, hA.2.2⟩, fun _ => rfl⟩, ⟨fun h => (by cases h), fun h => ?_⟩, by intro h; cases h⟩
    rw [hA.1] at h; cases h.1.1
  · rw [if_neg hA] at h
    by_cases hB : z = .yellow ∧ e.zone = .green ∧ (i + 1 - e.lastYellow > 12 ∨ i + 1 < 12)
    · rw [if_pos hB] at h
      subst h
      refine ⟨⟨fun h => (by cases h), fun h => ?_⟩, ⟨fun _ => ⟨⟨hB.1, hB.2.1⟩, hB.2.2⟩, fun _ => rfl⟩, by intro h; cases h⟩
      rw [hB.1] at h; cases h.1.1
    · rw [if_neg hB] at h
      subst h
      exact ⟨⟨fun h => (by cases h), fun h => absurd ⟨h.1.1, h.1.2, h.2⟩ hA⟩, ⟨fun h => (by cases h), fun h => absurd ⟨h.1.1, h.1.2, h.2⟩ hB⟩, by intro h; cases h⟩

end Verif.Space

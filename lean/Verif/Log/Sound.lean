import Verif.Log.RecLemmas
set_option linter.unusedVariables false
set_option linter.unusedSimpArgs false
/-! What a record that is returned looked like in the file. -/
namespace Verif.Log
open Verif.Ser Verif.Ser.BufSpec Spec

/-- The reader takes bytes that satisfy `P` together with the value. -/
def Sound {α : Type} (rd : In → Out (α × In)) (P : α → List Nat → Prop) : Prop :=
  ∀ i a i', rd i = .ok (a, i') → (∀ b ∈ i.rest, b < 256) → ∃ bs, i.rest = bs ++ i'.rest ∧ i'.x = eat i.x bs ∧ i'.len = i.len + bs.length ∧ P a bs

theorem Sound.bind {α β : Type} {rd : In → Out (α × In)} {g : α × In → Out (β × In)} {P : α → List Nat → Prop} {Q : α → β → List Nat → Prop}
    (h1 : Sound rd P) (h2 : ∀ a, Sound (fun i => g (a, i)) (Q a)) : Sound (fun i => rd i >>= g) (fun b bs => ∃ a b1 b2, bs = b1 ++ b2 ∧ P a b1 ∧ Q a b b2) := by
  intro i b i' h hb
  dsimp only at h
  cases hr : rd i with
  | ok r =>
    obtain ⟨a, j⟩ := r
    rw [hr, Out.bind_ok] at h
    obtain ⟨b1, e1, e2, e3, hp⟩ := h1 i a j hr hb
    obtain ⟨b2, f1, f2, f3, hq⟩ := h2 a j b i' h (fun b hm => hb b (by rw [e1]; exact List.mem_append_right _ hm))
    exact ⟨b1 ++ b2, by rw [e1, f1, List.append_assoc], by rw [f2, e2, eat_append], by rw [f3, e3, List.length_append, Nat.add_assoc], a, b1, b2, rfl, hp, hq⟩
  | eof => rw [hr] at h; cases h
  | bad => rw [hr] at h; cases h
  | smash => rw [hr] at h; cases h

theorem Sound.mono {α : Type} {rd : In → Out (α × In)} {P Q : α → List Nat → Prop} (h : Sound rd P) (hi : ∀ a bs, (∀ b ∈ bs, b < 256) → P a bs → Q a bs) : Sound rd Q := by
  intro i a i' he hb
  obtain ⟨bs, e1, e2, e3, hp⟩ := h i a i' he hb
  exact ⟨bs, e1, e2, e3, hi a bs (fun b hm => hb b (by rw [e1]; exact List.mem_append_left _ hm)) hp⟩

theorem Sound.pure {α : Type} (a : α) : Sound (fun i => (pure (a, i) : Out (α × In))) (fun b bs => b = a ∧ bs = []) := by
  intro i b i' h hb
  cases h
  exact ⟨[], rfl, rfl, rfl, rfl, rfl⟩

theorem sound8 : Sound rd8 (fun v bs => bs = [v]) := by
  intro i v i' h hb
  simp only [rd8] at h
  split at h
  · cases h
  · rename_i c t e
    cases h
    exact ⟨[v], by rw [e]; rfl, rfl, rfl, rfl⟩

theorem sound32 : Sound rd32 (fun v bs => bs = digits 4 v ∧ v < 2 ^ 32) := by
  refine Sound.mono (Sound.bind sound8 fun a => Sound.bind sound8 fun b => Sound.bind sound8 fun c => Sound.bind sound8 fun d => Sound.pure _) ?_
  rintro v bs hb ⟨a, _, _, rfl, rfl, b, _, _, rfl, rfl, c, _, _, rfl, rfl, d, _, _, rfl, rfl, rfl, rfl⟩
  have h : Bytes [a, b, c, d] := by intro x hx; exact hb x (by simpa using hx)
  refine ⟨?_, by simpa using le_lt h⟩
  exact (digits_le h).symm

theorem shl_or {a b : Nat} (hb : b < 2 ^ 32) : (a <<< 32) ||| b = a * 2 ^ 32 + b := by
  rw [← Nat.shiftLeft_add_eq_or_of_lt hb, Nat.shiftLeft_eq]

theorem sound64 : Sound rd64 (fun v bs => bs = wide v ∧ v < 2 ^ 64) := by
  refine Sound.mono (Sound.bind sound32 fun a => Sound.bind sound32 fun b => Sound.pure _) ?_
  rintro v bs _ ⟨a, _, _, rfl, ⟨rfl, ha⟩, b, _, _, rfl, ⟨rfl, hb⟩, rfl, rfl⟩
  rw [shl_or hb]
  refine ⟨?_, by omega⟩
  have e1 : (a * 2 ^ 32 + b) / 2 ^ 32 = a := by omega
  have e2 : (a * 2 ^ 32 + b) % 2 ^ 32 = b := by omega
  rw [wide, e1, e2, List.append_nil]

theorem soundBytes : ∀ n, Sound (rdBytes n) (fun v bs => bs = v ∧ v.length = n) := by
  intro n
  induction n with
  | zero => exact Sound.mono (Sound.pure []) (by rintro _ _ _ ⟨rfl, rfl⟩; exact ⟨rfl, rfl⟩)
  | succ n ih =>
    refine Sound.mono (Sound.bind sound8 fun a => Sound.bind ih fun b => Sound.pure _) ?_
    rintro v bs _ ⟨a, _, _, rfl, rfl, b, _, _, rfl, ⟨rfl, hb⟩, rfl, rfl⟩
    exact ⟨by simp, by simp [hb]⟩

theorem soundNums : ∀ n, Sound (rdNums n) (fun v bs => bs = v.flatMap (digits 4) ∧ v.length = n) := by
  intro n
  induction n with
  | zero => exact Sound.mono (Sound.pure []) (by rintro _ _ _ ⟨rfl, rfl⟩; exact ⟨rfl, rfl⟩)
  | succ n ih =>
    refine Sound.mono (Sound.bind sound32 fun a => Sound.bind ih fun b => Sound.pure _) ?_
    rintro v bs _ ⟨a, _, _, rfl, ⟨rfl, _⟩, b, _, _, rfl, ⟨rfl, hb⟩, rfl, rfl⟩
    exact ⟨by simp, by simp [hb]⟩

theorem soundXidData : ∀ n k, Sound (rdXidData k n) (fun v bs => bs = v ∧ v.length = n) := by
  intro n
  induction n with
  | zero => intro k; exact Sound.mono (Sound.pure []) (by rintro _ _ _ ⟨rfl, rfl⟩; exact ⟨rfl, rfl⟩)
  | succ n ih =>
    intro k
    by_cases hk : k < 128
    · have e : rdXidData k (n + 1) = fun i => rd8 i >>= fun r => rdXidData (k + 1) n r.2 >>= fun s => (Pure.pure (r.1 :: s.1, s.2) : Out (List Nat × In)) := by
        funext i; simp only [rdXidData, if_pos hk]
      rw [e]
      refine Sound.mono (Sound.bind sound8 fun a => Sound.bind (g := fun s => (Pure.pure (a :: s.1, s.2) : Out (List Nat × In))) (ih (k + 1)) fun b => Sound.pure (a :: b)) ?_
      rintro v bs _ ⟨a, _, _, rfl, rfl, b, _, _, rfl, ⟨rfl, hb⟩, rfl, rfl⟩
      exact ⟨by simp, by simp [hb]⟩
    · intro i a i' h hb
      simp only [rdXidData, if_neg hk] at h
      cases h8 : rd8 i <;> rw [h8] at h <;> cases h

theorem soundVal (t : Ty) : Sound (rdVal t) (Shows t) := by
  cases t
  case bool =>
    refine Sound.mono (Sound.bind sound8 fun a => Sound.pure _) ?_
    rintro v bs _ ⟨a, _, _, rfl, rfl, rfl, rfl⟩
    exact ⟨a, by simp, by simp⟩
  case pair =>
    refine Sound.mono (Sound.bind sound64 fun a => Sound.bind sound64 fun b => Sound.pure _) ?_
    rintro v bs _ ⟨a, _, _, rfl, ⟨rfl, ha⟩, b, _, _, rfl, ⟨rfl, hb⟩, rfl, rfl⟩
    exact by simp [Shows]
  case xid =>
    refine Sound.mono (Sound.bind (Sound.bind sound32 fun f => Sound.bind sound8 fun g => Sound.bind sound8 fun b => Sound.bind (soundXidData (g + b) 0) fun d => Sound.pure _) fun x => Sound.pure _) ?_
    rintro v bs _ ⟨x, _, _, rfl, ⟨f, _, _, rfl, ⟨rfl, hf⟩, g, _, _, rfl, rfl, b, _, _, rfl, rfl, d, _, _, rfl, ⟨rfl, hd⟩, rfl, rfl⟩, rfl, rfl⟩
    exact ⟨f, g, b, rfl, hd, by simp⟩
  case bytes =>
    refine Sound.mono (Sound.bind sound32 fun n => Sound.bind (soundBytes n) fun b => Sound.pure _) ?_
    rintro v bs _ ⟨a, _, _, rfl, ⟨rfl, ha⟩, b, _, _, rfl, ⟨rfl, hb⟩, rfl, rfl⟩
    exact by simp [Shows, hb]
  case filenums =>
    refine Sound.mono (Sound.bind sound32 fun n => Sound.bind (soundNums n) fun b => Sound.pure _) ?_
    rintro v bs _ ⟨a, _, _, rfl, ⟨rfl, ha⟩, b, _, _, rfl, ⟨rfl, hb⟩, rfl, rfl⟩
    exact by simp [Shows, hb]
  case u8 =>
    refine Sound.mono (Sound.bind sound8 fun a => Sound.pure _) ?_
    rintro v bs _ ⟨a, _, _, rfl, rfl, rfl, rfl⟩
    exact by simp [Shows]
  case u32 =>
    refine Sound.mono (Sound.bind sound32 fun a => Sound.pure _) ?_
    rintro v bs _ ⟨a, _, _, rfl, ⟨rfl, _⟩, rfl, rfl⟩
    exact by simp [Shows]
  case filenum =>
    refine Sound.mono (Sound.bind sound32 fun a => Sound.pure _) ?_
    rintro v bs _ ⟨a, _, _, rfl, ⟨rfl, _⟩, rfl, rfl⟩
    exact by simp [Shows]
  all_goals
    refine Sound.mono (Sound.bind sound64 fun a => Sound.pure _) ?_
    rintro v bs _ ⟨a, _, _, rfl, ⟨rfl, _⟩, rfl, rfl⟩
    exact by simp [Shows]

theorem soundVals : ∀ ts, Sound (rdVals ts) (ShowsAll ts) := by
  intro ts
  induction ts with
  | nil => exact Sound.mono (Sound.pure []) (by rintro _ _ _ ⟨rfl, rfl⟩; rfl)
  | cons t ts ih =>
    refine Sound.mono (Sound.bind (soundVal t) fun a => Sound.bind ih fun b => Sound.pure _) ?_
    rintro v bs _ ⟨a, b1, _, rfl, h1, b, b2, _, rfl, h2, rfl, rfl⟩
    exact ⟨b1, b2, by simp, h1, h2⟩

/-- A record that is returned was sealed. -/
theorem fread_sealed {f : List Nat} {e : Entry} {rest : List Nat} (hb : ∀ b ∈ f, b < 256) (hlen : f.length < 2 ^ 32) (h : fread f = .ok (e, rest)) :
    ∃ bs, f = bs ++ rest ∧ Sealed e bs := by
  simp only [fread] at h
  cases h32 : rd32 ⟨f, X.init, 0⟩ with
  | ok r =>
    obtain ⟨len1, i1⟩ := r
    simp only [h32, Out.bind_ok] at h
    cases h8 : rd8 i1 with
    | ok r =>
      obtain ⟨cmd, i2⟩ := r
      simp only [h8, Out.bind_ok] at h
      cases ht : fieldsOf cmd with
      | none => rw [ht] at h; cases h
      | some tys =>
        simp only [ht, rdRecord] at h
        cases h64 : rd64 i2 with
        | ok r =>
          obtain ⟨lsn, i3⟩ := r
          simp only [h64, Out.bind_ok] at h
          cases hv : rdVals tys i3 with
          | ok r =>
            obtain ⟨vs, i4⟩ := r
            simp only [hv, Out.bind_ok] at h
            cases hc : rd32 i4 with
            | ok r =>
              obtain ⟨crc, i5⟩ := r
              simp only [hc, Out.bind_ok] at h
              cases hl : rd32 i5 with
              | ok r =>
                obtain ⟨len2, i6⟩ := r
                simp only [hl, Out.bind_ok] at h
                split at h
                · cases h
                · rename_i hno
                  simp only [not_or, ne_eq, Decidable.not_not] at hno
                  obtain ⟨n1, n2, n3⟩ := hno
                  cases h
                  have hb0 : ∀ b ∈ (In.mk f X.init 0).rest, b < 256 := hb
                  obtain ⟨b1, a1, a2, a3, a4, -⟩ := sound32 _ _ _ h32 hb0
                  have m1 : ∀ b ∈ i1.rest, b < 256 := fun b hm => hb b (by rw [show f = b1 ++ i1.rest from a1]; exact List.mem_append_right _ hm)
                  obtain ⟨b2, c1, c2, c3, c4⟩ := sound8 _ _ _ h8 m1
                  have m2 : ∀ b ∈ i2.rest, b < 256 := fun b hm => m1 b (by rw [c1]; exact List.mem_append_right _ hm)
                  obtain ⟨b3, d1, d2, d3, d4, -⟩ := sound64 _ _ _ h64 m2
                  have m3 : ∀ b ∈ i3.rest, b < 256 := fun b hm => m2 b (by rw [d1]; exact List.mem_append_right _ hm)
                  obtain ⟨b4, e1, e2, e3, e4⟩ := soundVals _ _ _ _ hv m3
                  have m4 : ∀ b ∈ i4.rest, b < 256 := fun b hm => m3 b (by rw [e1]; exact List.mem_append_right _ hm)
                  obtain ⟨b5, f1, f2, f3, f4, -⟩ := sound32 _ _ _ hc m4
                  have m5 : ∀ b ∈ i5.rest, b < 256 := fun b hm => m4 b (by rw [f1]; exact List.mem_append_right _ hm)
                  obtain ⟨b6, g1, g2, g3, g4, -⟩ := sound32 _ _ _ hl m5
                  have hall : f = (b1 ++ b2 ++ b3 ++ b4 ++ b5 ++ b6) ++ i6.rest := by
                    rw [show f = b1 ++ i1.rest from a1, c1, d1, e1, f1, g1]; simp only [List.append_assoc]
                  refine ⟨b1 ++ b2 ++ b3 ++ b4 ++ b5 ++ b6, hall, tys, b4, ht, e4, ?_⟩
                  have hx : i4.x = eat X.init (b1 ++ b2 ++ b3 ++ b4) := by
                    simp only [e2, d2, c2, a2, eat_append]
                  have hle : i4.len = (b1 ++ b2 ++ b3 ++ b4).length := by
                    rw [e3, d3, c3, a3]; simp only [List.length_append, Nat.zero_add, Nat.add_assoc]
                  have hlen5 : b5.length = 4 := by rw [f4, digits_length]
                  have hlen6 : b6.length = 4 := by rw [g4, digits_length]
                  have htot : len2 = (b1 ++ b2 ++ b3 ++ b4 ++ b5 ++ b6).length := by
                    rw [n2, hle, m32, Nat.mod_eq_of_lt]
                    · simp only [List.length_append, hlen5, hlen6]
                    · have : f.length = ((b1 ++ b2 ++ b3 ++ b4 ++ b5 ++ b6) ++ i6.rest).length := by rw [← hall]
                      simp only [List.length_append, hlen5, hlen6] at this ⊢; omega
                  have hbb : ∀ b ∈ b1 ++ b2 ++ b3 ++ b4, b < 256 := by
                    intro b hm
                    apply hb; rw [hall]; simp only [List.mem_append] at hm ⊢; grind
                  rw [← htot]
                  rw [hx, eat_finish _ hbb] at n1
                  dsimp only
                  rw [f4, n1, g4]
                  rw [a4, c4, d4, n3]
              | eof => rw [hl] at h; cases h
              | bad => rw [hl] at h; cases h
              | smash => rw [hl] at h; cases h
            | eof => rw [hc] at h; cases h
            | bad => rw [hc] at h; cases h
            | smash => rw [hc] at h; cases h
          | eof => rw [hv] at h; cases h
          | bad => rw [hv] at h; cases h
          | smash => rw [hv] at h; cases h
        | eof => rw [h64] at h; cases h
        | bad => rw [h64] at h; cases h
        | smash => rw [h64] at h; cases h
    | eof => rw [h8] at h; cases h
    | bad => rw [h8] at h; cases h
    | smash => rw [h8] at h; cases h
  | eof => rw [h32] at h; cases h
  | bad => rw [h32] at h; cases h
  | smash => rw [h32] at h; cases h

end Verif.Log

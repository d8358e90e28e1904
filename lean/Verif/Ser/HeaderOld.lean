import Verif.Ser.HeaderRead

/-! Headers of older versions. -/
namespace Verif.Ser
open HeaderSpec

/-- The 64-bit number at the beginning of a list of bytes. -/
def ullOf (bs : List Nat) : Nat := ((le (bs.take 4)) <<< 32) ||| le ((bs.drop 4).take 4)

def Kind.width : Kind → Nat
  | .char => 1 | .bool => 1 | .networkInt => 4 | .int => 4 | .ull => 8 | .bytes => 0 | .literal n => n

def Kind.Fixed : Kind → Bool
  | .bool => false | .bytes => false | _ => true

def fixedVal (bs : List Nat) : Kind → Field
  | .networkInt => .networkInt (htonl (le (bs.take 4)))
  | .int => .int (le (bs.take 4))
  | .ull => .ull (ullOf bs)
  | .literal n => .literal (bs.take n)
  | _ => .char (bs.headD 0)

def fixedVals (bs : List Nat) : Nat → List Kind → List Field
  | _, [] => []
  | n, k :: ks => fixedVal (bs.drop n) k :: fixedVals bs (n + k.width) ks

def widths : List Kind → Nat
  | [] => 0
  | k :: ks => k.width + widths ks

theorem Rd.ull_fit' {r : Rd} (h : r.ndone + 8 ≤ r.buf.length) : r.ull = .ok (ullOf (r.buf.drop r.ndone), { r with ndone := r.ndone + 8 }) := by
  unfold Rd.ull
  rw [Rd.int_fit (by omega), R.bind_ok]
  simp only
  rw [Rd.int_fit (r := { r with ndone := r.ndone + 4 }) (by simp only; omega), R.bind_ok]
  simp only [ullOf, List.drop_drop]
  rfl

theorem Rd.field_fit {buf : List Nat} {n : Nat} {k : Kind} (hk : k.Fixed) (h : n + k.width ≤ buf.length) : Rd.field ⟨buf, n⟩ k = .ok (fixedVal (buf.drop n) k, ⟨buf, n + k.width⟩) := by
  cases k with
  | char =>
    simp only [Kind.width] at h
    have e : buf[n]? = some buf[n] := List.getElem?_eq_getElem (by omega)
    have hd : (buf.drop n).headD 0 = buf[n] := by rw [List.headD_eq_head?_getD, List.head?_drop, e]; rfl
    simp only [Rd.field, Rd.char, fixedVal, Kind.width, hd]
    rw [if_pos (by omega), e]
    rfl
  | bool => cases hk
  | networkInt => simp only [Rd.field]; rw [Rd.networkInt_fit h]; rfl
  | int => simp only [Rd.field]; rw [Rd.int_fit h]; rfl
  | ull => simp only [Rd.field]; rw [Rd.ull_fit' h]; rfl
  | bytes => cases hk
  | literal m => simp only [Rd.field, Rd.literal]; rw [Rd.get_fit h]; rfl

theorem Rd.fields_fit {buf : List Nat} : ∀ (ks : List Kind) (n : Nat), (∀ k ∈ ks, k.Fixed) → n + widths ks ≤ buf.length →
    Rd.fields ⟨buf, n⟩ ks = .ok (fixedVals buf n ks, ⟨buf, n + widths ks⟩)
  | [], n, _, _ => rfl
  | k :: ks, n, hk, h => by
    simp only [widths] at h
    unfold Rd.fields
    rw [Rd.field_fit (hk k List.mem_cons_self) (by omega), R.bind_ok]
    simp only
    rw [Rd.fields_fit ks (n + k.width) (fun k' h' => hk k' (List.mem_cons_of_mem _ h')) (by omega), R.bind_ok]
    simp only [fixedVals, widths, Nat.add_assoc]
    rfl

/-- A buffer too short for what is to be read makes the program stop. -/
theorem Rd.field_short {buf : List Nat} {n : Nat} {k : Kind} (hk : k.Fixed) (h : buf.length < n + k.width) (hsmall : n + k.width < 2 ^ 32) : Rd.field ⟨buf, n⟩ k = .abort := by
  have hg : ∀ (n w : Nat), buf.length < n + w → n + w < 2 ^ 32 → Rd.get ⟨buf, n⟩ w = .abort := by
    intro n w h1 h2
    unfold Rd.get m32
    rw [Nat.mod_eq_of_lt h2, if_neg (by simp only; omega)]
  cases k with
  | char =>
    simp only [Kind.width] at h
    simp only [Rd.field, Rd.char]
    rw [if_neg (by omega)]; rfl
  | bool => cases hk
  | networkInt => simp only [Rd.field, Rd.networkInt]; rw [hg n 4 h hsmall]; rfl
  | int => simp only [Rd.field, Rd.int]; rw [hg n 4 h hsmall]; rfl
  | ull =>
    simp only [Kind.width] at h hsmall
    simp only [Rd.field, Rd.ull]
    by_cases h4 : n + 4 ≤ buf.length
    · rw [Rd.int_fit (r := ⟨buf, n⟩) h4, R.bind_ok]
      simp only [Rd.int]
      rw [hg (n + 4) 4 (by omega) (by omega)]; rfl
    · simp only [Rd.int]
      rw [hg n 4 (by omega) (by omega)]; rfl
  | bytes => cases hk
  | literal m => simp only [Rd.field, Rd.literal]; rw [hg n m h hsmall]; rfl

theorem Rd.fields_short {buf : List Nat} : ∀ (ks : List Kind) (n : Nat), (∀ k ∈ ks, k.Fixed) → n ≤ buf.length → buf.length < n + widths ks → n + widths ks < 2 ^ 32 →
    Rd.fields ⟨buf, n⟩ ks = .abort
  | [], n, _, h0, h, _ => by simp only [widths] at h; omega
  | k :: ks, n, hk, h0, h, hsmall => by
    simp only [widths] at h hsmall
    unfold Rd.fields
    by_cases h1 : n + k.width ≤ buf.length
    · rw [Rd.field_fit (hk k List.mem_cons_self) h1, R.bind_ok]
      simp only
      rw [Rd.fields_short ks (n + k.width) (fun k' h' => hk k' (List.mem_cons_of_mem _ h')) h1 (by omega) (by omega)]
      rfl
    · rw [Rd.field_short (hk k List.mem_cons_self) (by omega) (by omega)]
      rfl

/-- What a place that is accepted contains. -/
theorem held_facts {s : List Nat} {g : Found} (h : Holds s g) : 13 ≤ g.version ∧ g.version ≤ 29 ∧ (∃ n, minSize g.version = some n ∧ n ≤ g.bytes.length) ∧ g.bytes.length ≤ 4096 ∧ 44 ≤ g.bytes.length ∧
    g.bytes.take 8 = magic ∧ htonl (le ((g.bytes.drop 8).take 4)) = g.version ∧ htonl (le ((g.bytes.drop 16).take 4)) = g.bytes.length ∧ (g.bytes.drop 20).take 8 = byteOrder ∧
    ullOf (g.bytes.drop 28) = g.count ∧ ullOf (g.bytes.drop 36) = g.lsn ∧ g.bytes = s.take g.bytes.length ∧
    memory (g.bytes.take (g.bytes.length - 4)) = le ((g.bytes.drop (g.bytes.length - 4)).take 4) := by
  unfold Holds readSlot at h
  by_cases h512 : (s.take 512).length = 512
  · rw [if_neg (by simp [h512])] at h
    have hs : 512 ≤ s.length := by rw [List.length_take] at h512; omega
    have h20 : (s.take 20).length = 20 := by rw [List.length_take]; omega
    rw [Rd.literal, Rd.get_fit (by simp only; omega), R.bind_ok] at h
    simp only at h
    by_cases hm : ((s.take 20).drop 0).take 8 = magic
    · rw [if_neg (by simpa using hm)] at h
      rw [Rd.networkInt_fit (by simp only; omega), R.bind_ok] at h
      simp only [Nat.zero_add] at h
      by_cases hlo : htonl (le (((s.take 20).drop 8).take 4)) < minVersion
      · rw [if_pos hlo] at h; cases h
      · rw [if_neg hlo] at h
        by_cases hhi : layoutVersion < htonl (le (((s.take 20).drop 8).take 4))
        · rw [if_pos hhi] at h; cases h
        · rw [if_neg hhi] at h
          rw [Rd.networkInt_fit (by simp only; omega), R.bind_ok] at h
          simp only at h
          generalize hver : htonl (le (((s.take 20).drop 8).take 4)) = ver at hlo hhi h
          simp only [minVersion, layoutVersion] at hlo hhi
          obtain ⟨n, hn, h36⟩ := minSize_some (v := ver) (by omega) (by omega)
          rw [hn] at h
          simp only at h
          rw [Rd.networkInt_fit (by simp only; omega), R.bind_ok] at h
          simp only at h
          generalize hsize : htonl (le (((s.take 20).drop (8 + 4 + 4)).take 4)) = size at h
          by_cases hsz : headerReserve < size ∨ size < n
          · rw [if_pos hsz] at h; cases h
          · rw [if_neg hsz, if_neg (by simp)] at h
            by_cases hr : (s.take (roundup512 size)).length = roundup512 size
            · rw [if_neg (by simp [hr])] at h
              have hle : size ≤ s.length := by
                rw [List.length_take] at hr
                unfold roundup512 at hr
                omega
              have hbl : (s.take size).length = size := by rw [List.length_take]; omega
              by_cases hck : memory ((s.take size).take (size - 4)) = le (((s.take size).drop (size - 4)).take 4)
              · rw [if_neg (by simpa using hck)] at h
                rw [Rd.literal, Rd.get_fit (by simp only; omega), R.bind_ok] at h
                simp only at h
                by_cases hbo : ((s.take size).drop (8 + 4 + 4 + 4)).take 8 = byteOrder
                · rw [if_neg (by simpa using hbo)] at h
                  rw [Rd.ull_fit' (r := ⟨s.take size, 8 + 4 + 4 + 4 + 8⟩) (by simp only; omega), R.bind_ok] at h
                  simp only at h
                  rw [Rd.ull_fit' (r := ⟨s.take size, 8 + 4 + 4 + 4 + 8 + 8⟩) (by simp only; omega), R.bind_ok] at h
                  cases h
                  simp only [headerReserve] at hsz
                  have tt : ∀ a b, a + b ≤ 20 → ((s.take 20).drop a).take b = ((s.take size).drop a).take b := by
                    intro a b hab
                    simp only [List.take_drop, List.take_take]
                    congr 2
                    omega
                  refine ⟨by simp only; omega, by simp only; omega, ⟨n, hn, by simp only; omega⟩, by simp only; omega, by simp only; omega, ?_, ?_, ?_, hbo, rfl, rfl, by simp only [hbl], by simp only [hbl]; exact hck⟩
                  · rw [tt 0 8 (by omega)] at hm; exact hm
                  · rw [tt 8 4 (by omega)] at hver; exact hver
                  · rw [tt (8 + 4 + 4) 4 (by omega)] at hsize; simp only [hbl]; exact hsize
                · rw [if_pos (by simpa using hbo)] at h; cases h
              · rw [if_pos (by simpa using hck)] at h; cases h
            · rw [if_pos hr] at h; cases h
    · rw [if_pos (by simpa using hm)] at h; cases h
  · rw [if_pos h512] at h; cases h

theorem headerReads_fixed (v : Nat) : ∀ k ∈ headerReads v, k.Fixed := by
  have h : (headerReads v).all Kind.Fixed = true := by
    unfold headerReads
    simp only [List.all_append, Bool.and_eq_true]
    refine ⟨⟨⟨⟨⟨⟨⟨⟨⟨rfl, ?_⟩, ?_⟩, ?_⟩, ?_⟩, ?_⟩, ?_⟩, ?_⟩, ?_⟩, rfl⟩
    · split
      · split <;> rfl
      · rfl
    all_goals (split <;> rfl)
  exact List.all_eq_true.mp h

/-- The versions whose header has the size the parser expects. -/
theorem widths_eq {v n : Nat} (h1 : 13 ≤ v) (h2 : v ≤ 29) (h17 : v ≠ 17) (h18 : v ≠ 18) (hn : minSize v = some n) : widths (headerReads v) = n := by
  have : v = 13 ∨ v = 14 ∨ v = 15 ∨ v = 16 ∨ v = 19 ∨ v = 20 ∨ v = 21 ∨ v = 22 ∨ v = 23 ∨ v = 24 ∨ v = 25 ∨ v = 26 ∨ v = 27 ∨ v = 28 ∨ v = 29 := by omega
  have key : minSize v = some (widths (headerReads v)) := by
    rcases this with rfl | rfl | rfl | rfl | rfl | rfl | rfl | rfl | rfl | rfl | rfl | rfl | rfl | rfl | rfl <;> decide
  rw [key] at hn
  exact Option.some.inj hn

/-- The part of `headerReads` after the place of the block table. -/
def restReads (v : Nat) : List Kind := (headerReads v).drop 10

theorem headerReads_split (v : Nat) : headerReads v = [.literal 8, .networkInt, .networkInt, .networkInt, .literal 8, .ull, .ull, .int, .ull, .ull] ++ restReads v := rfl

theorem ofRest_ok {v : Nat} (h1 : 13 ≤ v) (h2 : v ≤ 29) (a b c d e f : Nat) (buf : List Nat) (n : Nat) :
    ∃ h, ofRest v a b c d e f (fixedVals buf n (restReads v)) = some h ∧ h.count = b ∧ h.lsn = c := by
  have : v = 13 ∨ v = 14 ∨ v = 15 ∨ v = 16 ∨ v = 17 ∨ v = 18 ∨ v = 19 ∨ v = 20 ∨ v = 21 ∨ v = 22 ∨ v = 23 ∨ v = 24 ∨ v = 25 ∨ v = 26 ∨ v = 27 ∨ v = 28 ∨ v = 29 := by omega
  rcases this with rfl | rfl | rfl | rfl | rfl | rfl | rfl | rfl | rfl | rfl | rfl | rfl | rfl | rfl | rfl | rfl | rfl <;> exact ⟨_, rfl, rfl, rfl⟩

theorem parse_held {s : List Nat} {g : Found} (h : Holds s g) (hw : widths (headerReads g.version) = g.bytes.length)
    (ht : tablePlaced (ullOf (g.bytes.drop 48)) (ullOf (g.bytes.drop 56))) : ∃ x, parseHeader g.version g.bytes = .ok (.ok x) ∧ x.count = g.count ∧ x.lsn = g.lsn := by
  obtain ⟨h1, h2, _, _, _, hm, hver, hsz, hbo, hc, hl, _⟩ := held_facts h
  unfold parseHeader
  rw [Rd.fields_fit (headerReads g.version) 0 (headerReads_fixed _) (by omega), R.bind_ok]
  have e : ofFields g.version g.bytes.length (fixedVals g.bytes 0 (headerReads g.version)) =
      ofRest g.version (htonl (le ((g.bytes.drop 12).take 4))) g.count g.lsn (le ((g.bytes.drop 44).take 4)) (ullOf (g.bytes.drop 48)) (ullOf (g.bytes.drop 56)) (fixedVals g.bytes 64 (restReads g.version)) := by
    rw [headerReads_split]
    simp only [List.cons_append, List.nil_append, fixedVals, fixedVal, Kind.width, ofFields, Nat.zero_add, Nat.reduceAdd, List.drop_zero]
    rw [if_pos ⟨hm, hver, hsz, hbo⟩, if_pos ht, hc, hl]
  obtain ⟨x, ex, xc, xl⟩ := ofRest_ok h1 h2 (htonl (le ((g.bytes.drop 12).take 4))) g.count g.lsn (le ((g.bytes.drop 44).take 4)) (ullOf (g.bytes.drop 48)) (ullOf (g.bytes.drop 56)) g.bytes 64
  simp only
  rw [e, ex]
  simp only
  rw [if_neg (by simp only [Nat.zero_add, hw]; simp)]
  exact ⟨x, rfl, xc, xl⟩

/-- A header with more bytes than are read is refused, and with fewer stops the program. -/
theorem parse_long {v : Nat} {bs : List Nat} (h : widths (headerReads v) < bs.length) (x : Header) : parseHeader v bs ≠ .ok (.ok x) := by
  intro hx
  unfold parseHeader at hx
  rw [Rd.fields_fit (headerReads v) 0 (headerReads_fixed _) (by omega), R.bind_ok] at hx
  simp only at hx
  cases ho : ofFields v bs.length (fixedVals bs 0 (headerReads v)) with
  | none => rw [ho] at hx; cases hx
  | some y =>
    rw [ho] at hx
    simp only at hx
    rw [if_pos (by simp only [Nat.zero_add]; omega)] at hx
    cases hx

theorem parse_short {v : Nat} {bs : List Nat} (h : bs.length < widths (headerReads v)) (hs : widths (headerReads v) < 2 ^ 32) : parseHeader v bs = .abort := by
  unfold parseHeader
  rw [Rd.fields_short (headerReads v) 0 (headerReads_fixed _) (by omega) (by omega) (by omega)]
  rfl

theorem or_lt_64 {a b : Nat} (ha : a < 2 ^ 32) (hb : b < 2 ^ 32) : (a <<< 32) ||| b < 2 ^ 64 := by
  rw [← Nat.shiftLeft_add_eq_or_of_lt hb, Nat.shiftLeft_eq]
  omega

theorem ullOf_lt {bs : List Nat} (hb : ∀ b ∈ bs, b < 256) : ullOf bs < 2 ^ 64 := by
  have key : ∀ l : List Nat, (∀ b ∈ l, b < 256) → l.length ≤ 4 → le l < 2 ^ 32 := by
    intro l hl hn
    have := le_lt (l := l) hl
    refine Nat.lt_of_lt_of_le this ?_
    exact Nat.le_trans (Nat.pow_le_pow_right (by decide) hn) (by decide)
  unfold ullOf
  exact or_lt_64 (key _ (fun b h => hb b (List.mem_of_mem_take h)) (by rw [List.length_take]; omega))
    (key _ (fun b h => hb b (List.mem_of_mem_drop (List.mem_of_mem_take h))) (by rw [List.length_take]; omega))

theorem held_bytes {s : List Nat} {g : Found} (h : Holds s g) : ∀ b ∈ g.bytes, b ∈ s := by
  intro b hb
  rw [(held_facts h).2.2.2.2.2.2.2.2.2.2.2.1] at hb
  exact List.mem_of_mem_take hb

theorem held_lsn_lt {s : List Nat} {g : Found} (h : Holds s g) (hs : ∀ b ∈ s, b < 256) : g.lsn < 2 ^ 64 := by
  rw [← (held_facts h).2.2.2.2.2.2.2.2.2.2.1]
  exact ullOf_lt (fun b hb => hs b (held_bytes h b (List.mem_of_mem_drop hb)))

/-- Whether a place is accepted, and as what, depends only on the bytes the header says it has. -/
theorem held_congr {s s' : List Nat} {g : Found} (h : Holds s g) (ht : s'.take g.bytes.length = s.take g.bytes.length) (hl : s'.length % 512 = 0) : Holds s' g := by
  obtain ⟨_, _, _, _, h44, _, _, hszf, _, _, _, hbs, _⟩ := held_facts h
  generalize hn : g.bytes.length = n at ht h44 hszf hbs
  have hns : n ≤ s.length := by
    have := congrArg List.length hbs
    rw [hn, List.length_take] at this
    omega
  have hns' : n ≤ s'.length := by
    have := congrArg List.length ht
    rw [List.length_take, List.length_take] at this
    omega
  have e20 : s'.take 20 = s.take 20 := by
    have := congrArg (List.take 20) ht
    rwa [List.take_take, List.take_take, Nat.min_eq_left (by omega)] at this
  have hsf : htonl (le (((s.take 20).drop (8 + 4 + 4)).take 4)) = n := by
    rw [hbs] at hszf
    rw [← hszf]
    simp only [List.take_drop, List.take_take]
    congr 4
    omega
  unfold Holds readSlot at h ⊢
  by_cases h512 : (s.take 512).length = 512
  · rw [if_neg (by simp [h512])] at h
    rw [if_neg (by rw [List.length_take]; omega), e20]
    have hs : 512 ≤ s.length := by rw [List.length_take] at h512; omega
    have h20 : (s.take 20).length = 20 := by rw [List.length_take]; omega
    rw [Rd.literal, Rd.get_fit (by simp only; omega), R.bind_ok] at h ⊢
    simp only at h ⊢
    by_cases hm : ((s.take 20).drop 0).take 8 = magic
    · rw [if_neg (by simpa using hm)] at h ⊢
      rw [Rd.networkInt_fit (by simp only; omega), R.bind_ok] at h ⊢
      simp only [Nat.zero_add] at h ⊢
      by_cases hlo : htonl (le (((s.take 20).drop 8).take 4)) < minVersion
      · rw [if_pos hlo] at h; cases h
      · rw [if_neg hlo] at h ⊢
        by_cases hhi : layoutVersion < htonl (le (((s.take 20).drop 8).take 4))
        · rw [if_pos hhi] at h; cases h
        · rw [if_neg hhi] at h ⊢
          rw [Rd.networkInt_fit (by simp only; omega), R.bind_ok] at h ⊢
          simp only at h ⊢
          generalize htonl (le (((s.take 20).drop 8).take 4)) = ver at hlo hhi h ⊢
          simp only [minVersion, layoutVersion] at hlo hhi
          obtain ⟨k, hk, h36⟩ := minSize_some (v := ver) (by omega) (by omega)
          rw [hk] at h ⊢
          simp only at h ⊢
          rw [Rd.networkInt_fit (by simp only; omega), R.bind_ok] at h ⊢
          simp only at h ⊢
          rw [hsf] at h ⊢
          by_cases hsz : headerReserve < n ∨ n < k
          · rw [if_pos hsz] at h; cases h
          · rw [if_neg hsz, if_neg (by simp)] at h ⊢
            by_cases hr : (s.take (roundup512 n)).length = roundup512 n
            · rw [if_neg (by simp [hr])] at h
              rw [if_neg (by rw [List.length_take]; unfold roundup512; omega), ht]
              exact h
            · rw [if_pos hr] at h; cases h
    · rw [if_pos (by simpa using hm)] at h; cases h
  · rw [if_pos h512] at h; cases h

theorem sizeField_eq {s : List Nat} (hb : ∀ b ∈ s, b < 256) (hl : 20 ≤ s.length) : sizeField s = htonl (le ((s.drop 16).take 4)) := by
  have e : (s.drop 16).take 4 = [s[16]'(by omega), s[17]'(by omega), s[18]'(by omega), s[19]'(by omega)] := by
    apply List.ext_getElem?
    intro i
    by_cases h4 : i < 4
    · rw [List.getElem?_take_of_lt h4, List.getElem?_drop]
      have : i = 0 ∨ i = 1 ∨ i = 2 ∨ i = 3 := by omega
      rcases this with rfl | rfl | rfl | rfl <;> simp
    · rw [List.getElem?_eq_none (by simp only [List.length_take, List.length_drop]; omega), List.getElem?_eq_none (by simp; omega)]
  have b16 := hb s[16] (List.getElem_mem _)
  have b17 := hb s[17] (List.getElem_mem _)
  have b18 := hb s[18] (List.getElem_mem _)
  have b19 := hb s[19] (List.getElem_mem _)
  unfold sizeField
  rw [e]
  generalize s[16] = a at *
  generalize s[17] = b at *
  generalize s[18] = c at *
  generalize s[19] = d at *
  simp only [htonl, store32, le, List.reverse_cons, List.reverse_nil, List.nil_append, List.cons_append]
  omega

/-- What `Noticed` is for: a place that is accepted after an interrupted write is accepted as what it was, or as what it was to become. -/
theorem noticed_held {old new s : List Nat} (hn : Noticed old new s) (hb : ∀ b ∈ s, b < 256) (ho : old.length % 512 = 0) (hnew : new.length % 512 = 0) {g : Found} (h : Holds s g) :
    Holds old g ∨ Holds new g := by
  obtain ⟨_, _, _, _, h44, _, _, hszf, _, _, _, hbs, hck⟩ := held_facts h
  have hlen : g.bytes.length ≤ s.length := by
    have := congrArg List.length hbs
    rw [List.length_take] at this
    omega
  have hsf : sizeField s = g.bytes.length := by
    rw [sizeField_eq hb (by omega)]
    have e : (g.bytes.drop 16).take 4 = (s.drop 16).take 4 := by
      rw [hbs]
      simp only [List.take_drop, List.take_take]
      congr 2
      omega
    rw [← e]
    exact hszf
  have hB : Bytes (g.bytes.take (g.bytes.length - 4)) := fun b hb' => hb b (held_bytes h b (List.mem_of_mem_take hb'))
  have hc : Checked (s.take (sizeField s)) := by
    rw [hsf, ← hbs]
    unfold Checked
    rw [← memory_spec hB, hck, List.take_of_length_le (by rw [List.length_drop]; omega)]
  have := hn hc
  rw [hsf] at this
  rcases this with h1 | h1
  · exact Or.inl (held_congr h h1.symm ho)
  · exact Or.inr (held_congr h h1.symm hnew)

end Verif.Ser

import Verif.Node.PivotLemmas
import Verif.Node.PivotRun
/-!
C61: the pivots of nodes are the keys they were given, through every sequence of calls.
-/
set_option linter.unusedVariables false
namespace Verif.Node
open Verif.Ser PivotSpec

/-- Every object holds its list. -/
structure Hold (h : List Pk) (s : List (List Key)) : Prop where
  len : h.length = s.length
  rep : ∀ (o : Nat) (ks : List Key), s[o]? = some ks → ∃ p, h[o]? = some p ∧ p.Rep ks
  ok : ∀ ks ∈ s, ∀ k ∈ ks, Ok k

theorem Hold.get {h : List Pk} {s : List (List Key)} (hh : Hold h s) {o : Nat} {ks : List Key} (ho : s[o]? = some ks) : ∃ p, pkGet h o = .ok p ∧ p.Rep ks := by
  obtain ⟨p, hp, hr⟩ := hh.rep o ks ho
  exact ⟨p, by simp [pkGet, hp], hr⟩

theorem Hold.set {h : List Pk} {s : List (List Key)} (hh : Hold h s) {o : Nat} {p : Pk} {ks : List Key} (hr : p.Rep ks) (hk : ∀ k ∈ ks, Ok k) : Hold (h.set o p) (s.set o ks) := by
  refine ⟨by simp [hh.len], fun o' ks' ho => ?_, fun ks' hks => ?_⟩
  · rw [List.getElem?_set] at ho
    rw [List.getElem?_set]
    split at ho
    · rename_i he
      split at ho
      · rename_i hl
        simp only [Option.some.injEq] at ho
        subst ho
        exact ⟨p, by rw [if_pos (by omega), if_pos (by rw [hh.len]; omega)], hr⟩
      · simp at ho
    · rename_i he
      obtain ⟨q, hq, hr'⟩ := hh.rep o' ks' ho
      exact ⟨q, by rw [if_neg he]; exact hq, hr'⟩
  · rcases List.mem_or_eq_of_mem_set hks with h' | rfl
    · exact hh.ok ks' h'
    · exact hk

theorem Hold.push {h : List Pk} {s : List (List Key)} (hh : Hold h s) {p : Pk} {ks : List Key} (hr : p.Rep ks) (hk : ∀ k ∈ ks, Ok k) : Hold (h ++ [p]) (s ++ [ks]) := by
  refine ⟨by simp [hh.len], fun o' ks' ho => ?_, fun ks' hks => ?_⟩
  · rcases Nat.lt_or_ge o' s.length with hl | hl
    · rw [List.getElem?_append_left hl] at ho
      obtain ⟨q, hq, hr'⟩ := hh.rep o' ks' ho
      exact ⟨q, by rw [List.getElem?_append_left (by rw [hh.len]; exact hl)]; exact hq, hr'⟩
    · rw [List.getElem?_append_right hl] at ho
      rw [List.getElem?_append_right (by rw [hh.len]; exact hl), hh.len]
      cases hx : o' - s.length with
      | zero => rw [hx] at ho; simp at ho; subst ho; exact ⟨p, rfl, hr⟩
      | succ n => rw [hx] at ho; simp at ho
  · rcases List.mem_append.mp hks with h' | h'
    · exact hh.ok ks' h'
    · rw [List.mem_singleton.mp h']; exact hk

theorem layout_keys_length (ks : List (List Nat)) : (BufSpec.layout (keyFields ks)).length = (ks.map List.length).sum + ks.length * 4 := by
  induction ks with
  | nil => rfl
  | cons k ks ih =>
    simp only [keyFields, BufSpec.layout, List.map_cons, List.flatMap_cons, List.length_append, List.sum_cons, List.length_cons] at *
    rw [ih]
    simp only [BufSpec.bytes, List.length_append, digits_length]
    omega

theorem Pk.Rep.reload {p : Pk} {ks : List (List Nat)} (h : p.Rep ks) (hk : ∀ k ∈ ks, Ok k) : ∃ q, p.reload = .ok q ∧ q.Rep ks := by
  have hv : ∀ f ∈ keyFields ks, BufSpec.Valid f := by
    intro f hf
    obtain ⟨k, hm, rfl⟩ := List.mem_map.mp hf
    exact ⟨(hk k hm).2.1, (hk k hm).2.2⟩
  have hs := h.serialize (fun x hx => (hk x hx).1) hv (W.init (p.serializedSize + p.num * 4))
    (by rw [layout_keys_length, h.serializedSize, h.num]; simp [W.init])
  obtain ⟨q, hd, hr⟩ := Pk.Rep.deserialize hv [] []
  simp only [List.nil_append, List.append_nil, List.length_nil] at hd
  refine ⟨q, ?_, hr⟩
  rw [Pk.reload, hs, R.bind_ok]
  simp only [W.init, List.nil_append]
  rw [h.num, hd, R.bind_ok]
  simp only [if_true, R.pure_ok]

theorem step_holds {h : List Pk} {s s' : List (List Key)} {op : Op} (hh : Hold h s) (hs : step s op = some s') : ∃ h', Pk.step h op = .ok h' ∧ Hold h' s' := by
  cases op with
  | create ks =>
    rw [step] at hs
    split at hs
    · rename_i hk
      cases hs
      obtain ⟨p, hp, hr⟩ := Pk.Rep.fromDbts ks
      exact ⟨_, by rw [Pk.step, hp, R.bind_ok]; rfl, hh.push hr hk⟩
    · simp at hs
  | insert o i k =>
    rw [step] at hs
    split at hs
    · rename_i ks ho
      split at hs
      · rename_i hc
        cases hs
        obtain ⟨p, hp, hr⟩ := hh.get ho
        obtain ⟨q, hq, hr'⟩ := hr.insertAt hc.1 hc.2.1
        refine ⟨_, by rw [Pk.step, hp, R.bind_ok, hq, R.bind_ok]; rfl, hh.set hr' fun x hx => ?_⟩
        have hks := hh.ok ks (List.mem_of_getElem? ho)
        rcases List.mem_append.mp hx with hx | hx
        · exact hks x (List.mem_of_mem_take hx)
        · rcases List.mem_cons.mp hx with rfl | hx
          · exact hc.2
          · exact hks x (List.mem_of_mem_drop hx)
      · simp at hs
    · simp at hs
  | replace o i k =>
    rw [step] at hs
    split at hs
    · rename_i ks ho
      split at hs
      · rename_i hc
        cases hs
        obtain ⟨p, hp, hr⟩ := hh.get ho
        obtain ⟨q, hq, hr'⟩ := hr.replaceAt hc.1 hc.2.1
        refine ⟨_, by rw [Pk.step, hp, R.bind_ok, hq, R.bind_ok]; rfl, hh.set hr' fun x hx => ?_⟩
        have hks := hh.ok ks (List.mem_of_getElem? ho)
        split at hx
        · rcases List.mem_or_eq_of_mem_set hx with hx | rfl
          · exact hks x hx
          · exact hc.2
        · rcases List.mem_append.mp hx with hx | hx
          · exact hks x hx
          · rw [List.mem_singleton.mp hx]; exact hc.2
      · simp at hs
    · simp at hs
  | delete o i =>
    rw [step] at hs
    split at hs
    · rename_i ks ho
      split at hs
      · rename_i hc
        cases hs
        obtain ⟨p, hp, hr⟩ := hh.get ho
        obtain ⟨q, hq, hr'⟩ := hr.deleteAt hc
        exact ⟨_, by rw [Pk.step, hp, R.bind_ok, hq, R.bind_ok]; rfl, hh.set hr' fun x hx => hh.ok ks (List.mem_of_getElem? ho) x (List.mem_of_mem_eraseIdx hx)⟩
      · simp at hs
    · simp at hs
  | append o o' =>
    rw [step] at hs
    split at hs
    · rename_i ks ks' ho ho'
      split at hs
      · cases hs
        obtain ⟨p, hp, hr⟩ := hh.get ho
        obtain ⟨p', hp', hr'⟩ := hh.get ho'
        have hk : ∀ x ∈ ks ++ ks', Ok x := by
          intro x hx
          rcases List.mem_append.mp hx with hx | hx
          · exact hh.ok ks (List.mem_of_getElem? ho) x hx
          · exact hh.ok ks' (List.mem_of_getElem? ho') x hx
        obtain ⟨q, hq, hr'⟩ := hr.append hr' fun x hx => (hk x hx).1
        exact ⟨_, by rw [Pk.step, hp, R.bind_ok, hp', R.bind_ok, hq, R.bind_ok]; rfl, hh.set hr' hk⟩
      · simp at hs
    · simp at hs
  | split o i =>
    rw [step] at hs
    split at hs
    · rename_i ks ho
      cases hs
      obtain ⟨p, hp, hr⟩ := hh.get ho
      have hk := hh.ok ks (List.mem_of_getElem? ho)
      by_cases hi : i < ks.length
      · obtain ⟨q, r, hq, h1, h2⟩ := hr.splitAt (fun x hx => (hk x hx).1) hi
        rw [if_pos hi]
        exact ⟨_, by rw [Pk.step, hp, R.bind_ok, hq, R.bind_ok]; rfl, (hh.set h1 fun x hx => hk x (List.mem_of_mem_take hx)).push h2 fun x hx => hk x (List.mem_of_mem_drop hx)⟩
      · rw [if_neg hi]
        refine ⟨_, by rw [Pk.step, hp, R.bind_ok, hr.splitAt_all hi, R.bind_ok]; rfl, ?_⟩
        have : h.set o p = h := by
          have : h[o]? = some p := by
            obtain ⟨p', h1, _⟩ := hh.rep o ks ho
            simp only [pkGet, h1] at hp; cases hp; exact h1
          exact List.ext_getElem? fun j => by
            rw [List.getElem?_set]
            split
            · rename_i he
              subst he
              rw [this]
              split
              · rfl
              · rename_i hl; rw [List.getElem?_eq_none (by omega)] at this; simp at this
            · rfl
        simpa [this] using hh
    · simp at hs
  | copy o =>
    rw [step] at hs
    split at hs
    · rename_i ks ho
      cases hs
      obtain ⟨p, hp, hr⟩ := hh.get ho
      obtain ⟨q, hq, hr'⟩ := hr.clone
      exact ⟨_, by rw [Pk.step, hp, R.bind_ok, hq, R.bind_ok]; rfl, hh.push hr' (hh.ok ks (List.mem_of_getElem? ho))⟩
    · simp at hs
  | reload o =>
    rw [step] at hs
    split at hs
    · rename_i ks ho
      cases hs
      obtain ⟨p, hp, hr⟩ := hh.get ho
      obtain ⟨q, hq, hr'⟩ := hr.reload (hh.ok ks (List.mem_of_getElem? ho))
      exact ⟨_, by rw [Pk.step, hp, R.bind_ok, hq, R.bind_ok]; rfl, hh.push hr' (hh.ok ks (List.mem_of_getElem? ho))⟩
    · simp at hs

theorem run_holds {ops : List Op} {h : List Pk} {s s' : List (List Key)} (hh : Hold h s) (hs : run s ops = some s') : ∃ h', Pk.run h ops = .ok h' ∧ Hold h' s' := by
  induction ops generalizing h s with
  | nil => rw [run] at hs; cases hs; exact ⟨h, rfl, hh⟩
  | cons op ops ih =>
    rw [run, Option.bind_eq_some_iff] at hs
    obtain ⟨s1, h1, h2⟩ := hs
    obtain ⟨h', e1, hh'⟩ := step_holds hh h1
    obtain ⟨h'', e2, hh''⟩ := ih hh' h2
    exact ⟨h'', by rw [Pk.run, e1, R.bind_ok, e2], hh''⟩

/-- **C61** After every sequence of calls with keys that are not empty, no check fails, nothing outside an object is read, and
each object has as many pivots as its list has keys, gives the key of the list at each position, and reports their total size.
For empty keys it is false, see `C61_an_empty_pivot_stops_the_server`. -/
theorem C61_pivots_are_the_keys_given_partial (ops : List Op) (s : List (List Key)) (hs : run [] ops = some s) :
    ∃ h, Pk.run [] ops = .ok h ∧ h.length = s.length ∧
      ∀ (o : Nat) (ks : List Key), s[o]? = some ks → ∃ p, h[o]? = some p ∧ p.num = ks.length ∧
        (∀ (i : Nat) (k : Key), ks[i]? = some k → p.get i = .ok k) ∧ p.serializedSize = (ks.map List.length).sum := by
  obtain ⟨h, e, hh⟩ := run_holds (h := []) ⟨rfl, by simp, by simp⟩ hs
  refine ⟨h, e, hh.len, fun o ks ho => ?_⟩
  obtain ⟨p, hp, hr⟩ := hh.rep o ks ho
  exact ⟨p, hp, hr.num, fun i k hi => hr.get hi, hr.serializedSize⟩

def sampleOps : List Op :=
  [.create [[1, 2, 3], [4, 5, 6], [7, 8, 9]], .insert 0 1 [3, 3, 3], .split 0 2, .reload 0, .insert 2 1 [2, 2], .copy 2, .append 0 1, .replace 3 2 [9, 9], .delete 2 0,
    .reload 3, .append 4 0, .split 4 1, .delete 5 1]

example : run [] sampleOps =
    some [[[1, 2, 3], [3, 3, 3], [4, 5, 6], [7, 8, 9]], [[4, 5, 6], [7, 8, 9]], [[2, 2], [3, 3, 3]], [[1, 2, 3], [2, 2], [9, 9]],
      [[1, 2, 3]], [[2, 2], [1, 2, 3], [3, 3, 3], [4, 5, 6], [7, 8, 9]]] := by decide +kernel

/-- An empty key as the first pivot of a new root stops the server (`invariant(total_size() > 0)`, ft/pivotkeys.cc:266), and a
node with an empty pivot cannot be written (`invariant(size)`, pivotkeys.cc:399). -/
theorem C61_an_empty_pivot_stops_the_server :
    Pk.empty.insertAt [] 0 = .abort ∧ ∃ p, Pk.fromDbts [[], [1]] = .ok p ∧ p.serialize (W.init (p.serializedSize + p.num * 4)) = .abort := by
  refine ⟨by decide +kernel, ?_⟩
  exact ⟨_, rfl, by decide +kernel⟩

end Verif.Node

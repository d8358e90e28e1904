/-! Small list lemmas used throughout. -/
namespace Verif

theorem inj_of_nodup_map {α β : Type} {f : α → β} {l : List α} (h : (l.map f).Nodup) :
    ∀ a ∈ l, ∀ b ∈ l, f a = f b → a = b := by
  induction l with
  | nil => simp
  | cons c l ih =>
    simp only [List.map_cons, List.nodup_cons, List.mem_map, not_exists, not_and] at h
    intro a ha b hb hab
    rcases List.mem_cons.mp ha with ha' | ha'
    · rcases List.mem_cons.mp hb with hb' | hb'
      · rw [ha', hb']
      · subst ha'; exact absurd hab.symm (h.1 b hb')
    · rcases List.mem_cons.mp hb with hb' | hb'
      · subst hb'; exact absurd hab (h.1 a ha')
      · exact ih h.2 a ha' b hb' hab

end Verif

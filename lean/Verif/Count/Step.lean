import Verif.Count.Inv

/-! Partitioned counters: every step keeps what always holds, and none touches memory that was freed. -/
namespace Verif.Count

/-! ### Histories -/

/-- An event that is not a call of this thread for a value. -/
def Quiet (t : Tid) (e : Ev) : Prop := ∀ c, e ≠ .asked t c

theorem before_cons {t : Tid} {e : Ev} {es : List Ev} (h : Quiet t e) : before t (e :: es) = before t es := by
  cases e with
  | create c => rfl
  | destroy c => rfl
  | add c n => rfl
  | told u c v => rfl
  | asked u c =>
    show (if u = t then es else before t es) = _
    rw [if_neg]
    rintro rfl
    exact h c rfl

def Asked (t : Tid) (c : Ctr) (es : List Ev) : Prop := ∃ mid, es = mid ++ .asked t c :: before t es ∧ ∀ d, .asked t d ∉ mid

theorem Asked.cons {t : Tid} {c : Ctr} {e : Ev} {es : List Ev} (h : Asked t c es) (hq : Quiet t e) : Asked t c (e :: es) := by
  obtain ⟨mid, h1, h2⟩ := h
  refine ⟨e :: mid, ?_, ?_⟩
  · rw [before_cons hq, List.cons_append, ← h1]
  · intro d hm
    rcases List.mem_cons.1 hm with h | h
    · exact hq d h.symm
    · exact h2 d h

theorem Asked.now (t : Tid) (c : Ctr) (es : List Ev) : Asked t c (.asked t c :: es) := by
  refine ⟨[], ?_, fun d h => by cases h⟩
  show _ = [Ev.asked t c] ++ (if t = t then es else before t es)
  rw [if_pos rfl]
  rfl

/-! ### A thread moves on -/

theorem str_pc {s : State} (h : Str s) (t : Tid) (x : Pc) (lk : Option Tid) (hl : ∀ u, u ≠ t → (lk = some u ↔ s.lock = some u))
    (hlt : lk = some t ↔ ∃ c acc l, x = .reading c acc l) (live : ∀ c, x.about = some c → s.ctrs c ≠ none)
    (mineL : ∀ c n p, x = .load c n p → ∃ P, s.parts p = some P ∧ P.owner = c ∧ P.arr = t)
    (mineS : ∀ c n p v, x = .store c n p v → ∃ P, s.parts p = some P ∧ P.owner = c ∧ P.arr = t ∧ P.sum = v)
    (alone : ∀ c n C, x = .alloc c n → s.ctrs c = some C → ∀ p, (s.arrs t)[C.key]? ≠ some (some p))
    (rest : ∀ c acc l C, x = .reading c acc l → s.ctrs c = some C → l <:+ C.list) :
    Str { s with lock := lk, pc := put s.pc t x } where
  part := h.part
  nodup := h.nodup
  owned := h.owned
  arr := h.arr
  used := h.used
  keys := h.keys
  live := by
    intro u c hu
    by_cases e : u = t
    · subst e
      dsimp only at hu
      rw [put_same] at hu
      exact live c hu
    · dsimp only at hu
      rw [put_ne _ _ e] at hu
      exact h.live u c hu
  mineL := by
    intro u c n p hu
    by_cases e : u = t
    · subst e
      dsimp only at hu
      rw [put_same] at hu
      exact mineL c n p hu
    · dsimp only at hu
      rw [put_ne _ _ e] at hu
      exact h.mineL u c n p hu
  mineS := by
    intro u c n p v hu
    by_cases e : u = t
    · subst e
      dsimp only at hu
      rw [put_same] at hu
      exact mineS c n p v hu
    · dsimp only at hu
      rw [put_ne _ _ e] at hu
      exact h.mineS u c n p v hu
  alone := by
    intro u c n C hu
    by_cases e : u = t
    · subst e
      dsimp only at hu
      rw [put_same] at hu
      exact alone c n C hu
    · dsimp only at hu
      rw [put_ne _ _ e] at hu
      exact h.alone u c n C hu
  holder := by
    intro u c acc l hu
    by_cases e : u = t
    · subst e
      dsimp only at hu
      rw [put_same] at hu
      exact hlt.2 ⟨c, acc, l, hu⟩
    · dsimp only at hu
      rw [put_ne _ _ e] at hu
      exact (hl u e).2 (h.holder u c acc l hu)
  held := by
    intro u hu
    by_cases e : u = t
    · subst e
      dsimp only
      rw [put_same]
      exact hlt.1 hu
    · dsimp only
      rw [put_ne _ _ e]
      exact h.held u ((hl u e).1 hu)
  rest := by
    intro u c acc l C hu
    by_cases e : u = t
    · subst e
      dsimp only at hu
      rw [put_same] at hu
      exact rest c acc l C hu
    · dsimp only at hu
      rw [put_ne _ _ e] at hu
      exact h.rest u c acc l C hu

theorem sums_pc {s : State} {es es' : List Ev} (h : Sums s es) (t : Tid) (x : Pc) (lk : Option Tid) (ht : ∀ c, total c es' = total c es)
    (hb : ∀ u, u ≠ t → before u es' = before u es) (ha : ∀ u c, u ≠ t → Asked u c es → Asked u c es')
    (awaitLo : ∀ c, x = .await c → total c (before t es') ≤ total c es)
    (readLo : ∀ c acc l, x = .reading c acc l → total c (before t es') ≤ total c es)
    (between : ∀ c acc l, x = .reading c acc l → total c es < W → total c (before t es') ≤ acc + sumOf s.parts l ∧ acc + sumOf s.parts l ≤ total c es)
    (still : ∀ c acc l, x = .reading c acc l → total c es = total c (before t es') → (acc + sumOf s.parts l) % W = total c es % W)
    (asked : ∀ c, (x = .await c ∨ ∃ acc l, x = .reading c acc l) → Asked t c es') :
    Sums { s with lock := lk, pc := put s.pc t x } es' where
  mod := by
    intro c C hc
    rw [ht]
    exact h.mod c C hc
  exact := by
    intro c C hc
    rw [ht]
    exact h.exact c C hc
  awaitLo := by
    intro u c hu
    rw [ht]
    by_cases e : u = t
    · subst e
      dsimp only at hu
      rw [put_same] at hu
      exact awaitLo c hu
    · dsimp only at hu
      rw [put_ne _ _ e] at hu
      rw [hb u e]
      exact h.awaitLo u c hu
  readLo := by
    intro u c acc l hu
    rw [ht]
    by_cases e : u = t
    · subst e
      dsimp only at hu
      rw [put_same] at hu
      exact readLo c acc l hu
    · dsimp only at hu
      rw [put_ne _ _ e] at hu
      rw [hb u e]
      exact h.readLo u c acc l hu
  between := by
    intro u c acc l hu
    rw [ht]
    by_cases e : u = t
    · subst e
      dsimp only at hu
      rw [put_same] at hu
      exact between c acc l hu
    · dsimp only at hu
      rw [put_ne _ _ e] at hu
      rw [hb u e]
      exact h.between u c acc l hu
  still := by
    intro u c acc l hu
    rw [ht]
    by_cases e : u = t
    · subst e
      dsimp only at hu
      rw [put_same] at hu
      exact still c acc l hu
    · dsimp only at hu
      rw [put_ne _ _ e] at hu
      rw [hb u e]
      exact h.still u c acc l hu
  asked := by
    intro u c hu
    by_cases e : u = t
    · subst e
      dsimp only at hu
      rw [put_same] at hu
      exact asked c hu
    · dsimp only at hu
      rw [put_ne _ _ e] at hu
      exact ha u c e (h.asked u c hu)

/-- A step within an operation that neither reads nor waits to read. -/
theorem sums_plain {s : State} {es : List Ev} (h : Sums s es) (t : Tid) (x : Pc) (h1 : ∀ c, x ≠ .await c) (h2 : ∀ c acc l, x ≠ .reading c acc l) :
    Sums { s with pc := put s.pc t x } es :=
  sums_pc (es' := es) h t x s.lock (fun _ => rfl) (fun _ _ => rfl) (fun _ _ _ h => h) (fun c e => absurd e (h1 c)) (fun c acc l e => absurd e (h2 c acc l))
    (fun c acc l e => absurd e (h2 c acc l)) (fun c acc l e => absurd e (h2 c acc l))
    (fun c e => by rcases e with e | ⟨acc, l, e⟩; exact absurd e (h1 c); exact absurd e (h2 c acc l))

theorem not_holder {s : State} (h : Str s) {t : Tid} (ht : ∀ c acc l, s.pc t ≠ .reading c acc l) : s.lock ≠ some t := by
  intro e
  obtain ⟨c, acc, l, e⟩ := h.held t e
  exact ht c acc l e

/-- A step of a thread that does not hold the lock to a place where it does not hold it. -/
theorem str_plain {s : State} (h : Str s) (t : Tid) (x : Pc) (ht : ∀ c acc l, s.pc t ≠ .reading c acc l) (hx : ∀ c acc l, x ≠ .reading c acc l)
    (live : ∀ c, x.about = some c → s.ctrs c ≠ none)
    (mineL : ∀ c n p, x = .load c n p → ∃ P, s.parts p = some P ∧ P.owner = c ∧ P.arr = t)
    (mineS : ∀ c n p v, x = .store c n p v → ∃ P, s.parts p = some P ∧ P.owner = c ∧ P.arr = t ∧ P.sum = v)
    (alone : ∀ c n C, x = .alloc c n → s.ctrs c = some C → ∀ p, (s.arrs t)[C.key]? ≠ some (some p)) :
    Str { s with pc := put s.pc t x } :=
  str_pc h t x s.lock (fun _ _ => Iff.rfl)
    ⟨fun e => absurd e (not_holder h ht), fun ⟨c, acc, l, e⟩ => absurd e (hx c acc l)⟩ live mineL mineS alone
    (fun c acc l C e => absurd e (hx c acc l))

/-- What a step comes to. -/
def Fine (es : List Ev) : Out → Prop
  | .done s e => Inv s (note e es)
  | .wait => True
  | .crash => False

theorem create_ok {s : State} {es : List Ev} (h : Inv s es) (t : Tid) (c : Ctr) : Fine es (act s t (.create c)) := by
  unfold act
  dsimp only
  by_cases hc : s.pc t = .idle ∧ s.lock = none ∧ s.ctrs c = none
  · rw [if_pos hc]
    obtain ⟨_, hl, hn⟩ := hc
    have hs := h.str
    have hv := h.sums
    have ne : ∀ d D, s.ctrs d = some D → d ≠ c := by
      rintro d D hd rfl
      rw [hn] at hd
      cases hd
    have get : ∀ d D, put s.ctrs c (some ⟨0, (allocate s.inUse).1, []⟩) d = some D →
        (d = c ∧ D = ⟨0, (allocate s.inUse).1, []⟩) ∨ (d ≠ c ∧ s.ctrs d = some D) := by
      intro d D hd
      by_cases e : d = c
      · subst e
        rw [put_same] at hd
        cases hd
        exact .inl ⟨rfl, rfl⟩
      · rw [put_ne _ _ e] at hd
        exact .inr ⟨e, hd⟩
    have keep : ∀ d D, s.ctrs d = some D → put s.ctrs c (some ⟨0, (allocate s.inUse).1, []⟩) d = some D := by
      intro d D hd
      rw [put_ne _ _ (ne d D hd)]
      exact hd
    have noRead : ∀ u d acc l, s.pc u ≠ .reading d acc l := by
      intro u d acc l e
      have := hs.holder u d acc l e
      rw [hl] at this
      cases this
    have tot : ∀ d, d ≠ c → total d (.create c :: es) = total d es := fun d hd => if_neg (Ne.symm hd)
    refine ⟨⟨?_, ?_, ?_, ?_, ?_, ?_, ?_, hs.mineL, hs.mineS, ?_, hs.holder, hs.held, ?_⟩, ⟨?_, ?_, ?_, ?_, ?_, ?_, ?_⟩⟩
    · intro d D hd
      rcases get d D hd with ⟨_, rfl⟩ | ⟨_, hd⟩
      · intro p hp
        cases hp
      · exact hs.part d D hd
    · intro d D hd
      rcases get d D hd with ⟨_, rfl⟩ | ⟨_, hd⟩
      · exact List.nodup_nil
      · exact hs.nodup d D hd
    · intro p P hp
      obtain ⟨D, h1, h2⟩ := hs.owned p P hp
      exact ⟨D, keep _ D h1, h2⟩
    · intro u k p hp
      obtain ⟨P, D, h1, h2, h3, h4⟩ := hs.arr u k p hp
      exact ⟨P, D, h1, h2, keep _ D h3, h4⟩
    · intro d D hd
      rcases get d D hd with ⟨_, rfl⟩ | ⟨_, hd⟩
      · exact allocate_used _
      · exact allocate_keeps _ _ (hs.used d D hd)
    · intro d d' D D' hd hd' hk
      rcases get d D hd with ⟨e, rfl⟩ | ⟨e, hd⟩
      · rcases get d' D' hd' with ⟨e', rfl⟩ | ⟨e', hd'⟩
        · rw [e, e']
        · exfalso
          have := hs.used d' D' hd'
          rw [← hk] at this
          exact allocate_free _ this
      · rcases get d' D' hd' with ⟨e', rfl⟩ | ⟨e', hd'⟩
        · exfalso
          have := hs.used d D hd
          rw [hk] at this
          exact allocate_free _ this
        · exact hs.keys d d' D D' hd hd' hk
    · intro u d hu e
      obtain ⟨D, hD⟩ := Option.ne_none_iff_exists'.1 (hs.live u d hu)
      dsimp only at e
      rw [keep d D hD] at e
      cases e
    · intro u d n D hu hd
      rcases get d D hd with ⟨e, rfl⟩ | ⟨_, hd⟩
      · exfalso
        subst e
        exact hs.live u d (by rw [hu]; rfl) hn
      · exact hs.alone u d n D hu hd
    · intro u d acc l D hu
      exact absurd hu (noRead u d acc l)
    · intro d D hd
      rcases get d D hd with ⟨rfl, rfl⟩ | ⟨e, hd⟩
      · show (0 + sumOf s.parts []) % W = (if d = d then 0 else total d es) % W
        rw [if_pos rfl, sumOf_nil]
      · show _ = total d (.create c :: es) % W
        rw [tot d e]
        exact hv.mod d D hd
    · intro d D hd
      rcases get d D hd with ⟨rfl, rfl⟩ | ⟨e, hd⟩
      · intro _
        show 0 + sumOf s.parts [] = (if d = d then 0 else total d es)
        rw [if_pos rfl, sumOf_nil]
      · show total d (.create c :: es) < W → _ = total d (.create c :: es)
        rw [tot d e]
        exact hv.exact d D hd
    · intro u d hu
      have e : d ≠ c := by
        rintro rfl
        exact hs.live u d (by rw [show s.pc u = _ from hu]; rfl) hn
      show total d (before u (.create c :: es)) ≤ total d (.create c :: es)
      rw [tot d e, before_cons (fun _ h => by cases h)]
      exact hv.awaitLo u d hu
    · intro u d acc l hu
      exact absurd hu (noRead u d acc l)
    · intro u d acc l hu
      exact absurd hu (noRead u d acc l)
    · intro u d acc l hu
      exact absurd hu (noRead u d acc l)
    · intro u d hu
      exact Asked.cons (hv.asked u d hu) (fun _ h => by cases h)
  · rw [if_neg hc]
    trivial

theorem destroy_ok {s : State} {es : List Ev} (h : Inv s es) (t : Tid) (c : Ctr) (hg : Legal s t (.destroy c)) : Fine es (act s t (.destroy c)) := by
  unfold act
  dsimp only
  by_cases hc : s.pc t = .idle ∧ s.lock = none
  · rw [if_pos hc]
    obtain ⟨_, hl⟩ := hc
    have hs := h.str
    have hv := h.sums
    obtain ⟨C, hC⟩ := Option.ne_none_iff_exists'.1 hg.1
    have hne := hg.2
    obtain ⟨parts', arrs', r1, r2, r3, r4⟩ := destroyParts_ok c C.key C.list s.parts s.arrs (hs.nodup c C hC) (hs.part c C hC)
      (by
        intro u k p hp he
        obtain ⟨P, D, h1, h2, h3, h4⟩ := hs.arr u k p he
        obtain ⟨P', h5, h6, _⟩ := hs.part c C hC p hp
        rw [h1] at h5
        cases h5
        rw [h6, hC] at h3
        cases h3
        exact ⟨h4.symm, P, h1, h2⟩)
    have hfk : freeKey s.inUse C.key = some (s.inUse.set C.key false) := if_pos (hs.used c C hC)
    simp only [hC, r1, hfk]
    have get : ∀ d D, put s.ctrs c none d = some D → d ≠ c ∧ s.ctrs d = some D := by
      intro d D hd
      by_cases e : d = c
      · subst e
        rw [put_same] at hd
        cases hd
      · rw [put_ne _ _ e] at hd
        exact ⟨e, hd⟩
    have keep : ∀ d D, d ≠ c → s.ctrs d = some D → put s.ctrs c none d = some D := by
      intro d D e hd
      rw [put_ne _ _ e]
      exact hd
    have noRead : ∀ u d acc l, s.pc u ≠ .reading d acc l := by
      intro u d acc l e
      have := hs.holder u d acc l e
      rw [hl] at this
      cases this
    have other : ∀ p P, s.parts p = some P → P.owner ≠ c → p ∉ C.list := by
      intro p P hp ho hm
      obtain ⟨P', h1, h2, _⟩ := hs.part c C hC p hm
      rw [hp] at h1
      cases h1
      exact ho h2
    have back : ∀ p P, parts' p = some P → s.parts p = some P ∧ P.owner ≠ c ∧ p ∉ C.list := by
      intro p P hp
      have hm : p ∉ C.list := by
        intro hm
        rw [r2 p hm] at hp
        cases hp
      rw [r3 p hm] at hp
      refine ⟨hp, ?_, hm⟩
      intro ho
      refine hm (part_same hs hp ?_)
      rw [ho]
      exact hC
    have fwd : ∀ p P, s.parts p = some P → P.owner ≠ c → parts' p = some P := by
      intro p P hp ho
      rw [r3 p (other p P hp ho)]
      exact hp
    have about : ∀ u d, (s.pc u).about = some d → d ≠ c := by
      rintro u d hu rfl
      exact hne u hu
    have sums : ∀ d D, d ≠ c → s.ctrs d = some D → sumOf parts' D.list = sumOf s.parts D.list := by
      intro d D e hd
      refine sumOf_congr fun p hp => ?_
      obtain ⟨P, h1, h2, _⟩ := hs.part d D hd p hp
      rw [h1]
      exact fwd p P h1 (by rw [h2]; exact e)
    refine ⟨⟨?_, ?_, ?_, ?_, ?_, ?_, ?_, ?_, ?_, ?_, hs.holder, hs.held, ?_⟩, ⟨?_, ?_, ?_, ?_, ?_, ?_, ?_⟩⟩
    · intro d D hd p hp
      obtain ⟨e, hd⟩ := get d D hd
      obtain ⟨P, h1, h2, h3⟩ := hs.part d D hd p hp
      have ho : P.owner ≠ c := by rw [h2]; exact e
      exact ⟨P, fwd p P h1 ho, h2, (r4 _ _ _).2 ⟨h3, other p P h1 ho⟩⟩
    · intro d D hd
      exact hs.nodup d D (get d D hd).2
    · intro p P hp
      obtain ⟨h1, h2, _⟩ := back p P hp
      obtain ⟨D, h3, h4⟩ := hs.owned p P h1
      exact ⟨D, keep _ D h2 h3, h4⟩
    · intro u k p hp
      obtain ⟨h1, h2⟩ := (r4 u k p).1 hp
      obtain ⟨P, D, h3, h4, h5, h6⟩ := hs.arr u k p h1
      have ho : P.owner ≠ c := by
        intro e
        refine h2 (part_same hs h3 ?_)
        rw [e]
        exact hC
      exact ⟨P, D, fwd p P h3 ho, h4, keep _ D ho h5, h6⟩
    · intro d D hd
      obtain ⟨e, hd⟩ := get d D hd
      show (s.inUse.set C.key false)[D.key]? = some true
      rw [List.getElem?_set_ne]
      · exact hs.used d D hd
      · intro hk
        exact e (hs.keys d c D C hd hC hk.symm)
    · intro d d' D D' hd hd' hk
      exact hs.keys d d' D D' (get d D hd).2 (get d' D' hd').2 hk
    · intro u d hu e
      obtain ⟨D, hD⟩ := Option.ne_none_iff_exists'.1 (hs.live u d hu)
      dsimp only at e
      rw [keep d D (about u d hu) hD] at e
      cases e
    · intro u d n p hu
      obtain ⟨P, h1, h2, h3⟩ := hs.mineL u d n p hu
      refine ⟨P, fwd p P h1 ?_, h2, h3⟩
      rw [h2]
      exact about u d (by rw [show s.pc u = _ from hu]; rfl)
    · intro u d n p v hu
      obtain ⟨P, h1, h2, h3⟩ := hs.mineS u d n p v hu
      refine ⟨P, fwd p P h1 ?_, h2, h3⟩
      rw [h2]
      exact about u d (by rw [show s.pc u = _ from hu]; rfl)
    · intro u d n D hu hd p hp
      exact hs.alone u d n D hu (get d D hd).2 p ((r4 _ _ _).1 hp).1
    · intro u d acc l D hu
      exact absurd hu (noRead u d acc l)
    · intro d D hd
      obtain ⟨e, hd⟩ := get d D hd
      show (D.dead + sumOf parts' D.list) % W = _
      rw [sums d D e hd]
      exact hv.mod d D hd
    · intro d D hd
      obtain ⟨e, hd⟩ := get d D hd
      show _ → D.dead + sumOf parts' D.list = _
      rw [sums d D e hd]
      exact hv.exact d D hd
    · intro u d hu
      exact hv.awaitLo u d hu
    · intro u d acc l hu
      exact absurd hu (noRead u d acc l)
    · intro u d acc l hu
      exact absurd hu (noRead u d acc l)
    · intro u d acc l hu
      exact absurd hu (noRead u d acc l)
    · intro u d hu
      exact Asked.cons (hv.asked u d hu) (fun _ h => by cases h)
  · rw [if_neg hc]
    trivial

theorem exit_ok {s : State} {es : List Ev} (h : Inv s es) (t : Tid) : Fine es (act s t .exit) := by
  unfold act
  dsimp only
  by_cases hc : s.pc t = .idle ∧ s.lock = none
  · rw [if_pos hc]
    obtain ⟨hi, hl⟩ := hc
    have hs := h.str
    have hv := h.sums
    have inArr : ∀ p, some p ∈ s.arrs t → ∃ P C, s.parts p = some P ∧ P.arr = t ∧ s.ctrs P.owner = some C := by
      intro p hp
      obtain ⟨k, hk⟩ := List.getElem?_of_mem hp
      obtain ⟨P, C, h1, h2, h3, _⟩ := hs.arr t k p hk
      exact ⟨P, C, h1, h2, h3⟩
    have mine : ∀ p P C, s.parts p = some P → P.arr = t → s.ctrs P.owner = some C → some p ∈ s.arrs t := by
      intro p P C hp ha hC
      obtain ⟨P', h1, _, h3⟩ := hs.part _ C hC p (part_same hs hp hC)
      rw [hp] at h1
      cases h1
      rw [ha] at h3
      exact List.mem_of_getElem? h3
    obtain ⟨ctrs', parts', r1, r2, r3, r4, r5⟩ := exitParts_ok (s.arrs t) s.ctrs s.parts
      (by
        intro i j p h1 h2
        obtain ⟨P, C, a1, _, a3, a4⟩ := hs.arr t i p h1
        obtain ⟨P', C', b1, _, b3, b4⟩ := hs.arr t j p h2
        rw [a1] at b1
        cases b1
        rw [a3] at b3
        cases b3
        omega)
      (by
        intro p hp
        obtain ⟨P, C, h1, _, h3⟩ := inArr p hp
        exact ⟨P, C, h1, h3, part_same hs h1 h3⟩)
      (by
        intro c C hC
        refine ⟨hs.nodup c C hC, ?_⟩
        intro p hp
        obtain ⟨P, h1, h2, _⟩ := hs.part c C hC p hp
        exact ⟨P, h1, h2⟩)
    simp only [r1]
    have get : ∀ d D', ctrs' d = some D' → ∃ D, s.ctrs d = some D ∧ D'.key = D.key ∧ D'.list.Nodup ∧ (∀ q, q ∈ D'.list ↔ q ∈ D.list ∧ some q ∉ s.arrs t) ∧
        (D'.dead + sumOf parts' D'.list) % W = (D.dead + sumOf s.parts D.list) % W ∧
        (D.dead + sumOf s.parts D.list < W → D'.dead + sumOf parts' D'.list = D.dead + sumOf s.parts D.list) := by
      intro d D' hd
      cases hD : s.ctrs d with
      | none =>
        rw [r4 d hD] at hd
        cases hd
      | some D =>
        obtain ⟨E, a1, a2⟩ := r5 d D hD
        rw [hd] at a1
        cases a1
        exact ⟨D, rfl, a2⟩
    have keep : ∀ d D, s.ctrs d = some D → ∃ D', ctrs' d = some D' ∧ D'.key = D.key ∧ ∀ q, q ∈ D'.list ↔ q ∈ D.list ∧ some q ∉ s.arrs t := by
      intro d D hd
      obtain ⟨D', a1, a2, _, a4, _⟩ := r5 d D hd
      exact ⟨D', a1, a2, a4⟩
    have noRead : ∀ u d acc l, s.pc u ≠ .reading d acc l := by
      intro u d acc l e
      have := hs.holder u d acc l e
      rw [hl] at this
      cases this
    have back : ∀ p P, parts' p = some P → s.parts p = some P ∧ some p ∉ s.arrs t := by
      intro p P hp
      have hm : some p ∉ s.arrs t := by
        intro hm
        rw [r2 p hm] at hp
        cases hp
      rw [r3 p hm] at hp
      exact ⟨hp, hm⟩
    have fwd : ∀ p P, s.parts p = some P → P.arr ≠ t → parts' p = some P := by
      intro p P hp ha
      rw [r3 p]
      · exact hp
      · intro hm
        obtain ⟨P', _, h1, h2, _⟩ := inArr p hm
        rw [hp] at h1
        cases h1
        exact ha h2
    have busy : ∀ u c, (s.pc u).about = some c → u ≠ t := by
      rintro u c hu rfl
      rw [hi] at hu
      cases hu
    refine ⟨⟨?_, ?_, ?_, ?_, ?_, ?_, ?_, ?_, ?_, ?_, hs.holder, hs.held, ?_⟩, ⟨?_, ?_, hv.awaitLo, hv.readLo, ?_, ?_, hv.asked⟩⟩
    · intro d D' hd p hp
      obtain ⟨D, a1, a2, _, a4, _⟩ := get d D' hd
      obtain ⟨b1, b2⟩ := (a4 p).1 hp
      obtain ⟨P, h1, h2, h3⟩ := hs.part d D a1 p b1
      have ha : P.arr ≠ t := by
        intro e
        rw [e] at h3
        exact b2 (List.mem_of_getElem? h3)
      refine ⟨P, fwd p P h1 ha, h2, ?_⟩
      show (put s.arrs t [] P.arr)[D'.key]? = _
      rw [put_ne _ _ ha, a2]
      exact h3
    · intro d D' hd
      obtain ⟨D, _, _, a3, _⟩ := get d D' hd
      exact a3
    · intro p P hp
      obtain ⟨h1, h2⟩ := back p P hp
      obtain ⟨D, h3, h4⟩ := hs.owned p P h1
      obtain ⟨D', a1, _, a3⟩ := keep _ D h3
      exact ⟨D', a1, (a3 p).2 ⟨h4, h2⟩⟩
    · intro u k p hp
      have hp : (put s.arrs t [] u)[k]? = some (some p) := hp
      by_cases hu : u = t
      · subst hu
        rw [put_same] at hp
        cases hp
      · rw [put_ne _ _ hu] at hp
        obtain ⟨P, D, h3, h4, h5, h6⟩ := hs.arr u k p hp
        obtain ⟨D', a1, a2, _⟩ := keep _ D h5
        exact ⟨P, D', fwd p P h3 (by rw [h4]; exact hu), h4, a1, by rw [a2]; exact h6⟩
    · intro d D' hd
      obtain ⟨D, a1, a2, _⟩ := get d D' hd
      rw [a2]
      exact hs.used d D a1
    · intro d d' D' E' hd hd' hk
      obtain ⟨D, a1, a2, _⟩ := get d D' hd
      obtain ⟨E, b1, b2, _⟩ := get d' E' hd'
      exact hs.keys d d' D E a1 b1 (by rw [← a2, ← b2]; exact hk)
    · intro u d hu e
      obtain ⟨D, hD⟩ := Option.ne_none_iff_exists'.1 (hs.live u d hu)
      obtain ⟨D', a1, _⟩ := keep d D hD
      have e : ctrs' d = none := e
      rw [a1] at e
      cases e
    · intro u d n p hu
      obtain ⟨P, h1, h2, h3⟩ := hs.mineL u d n p hu
      refine ⟨P, fwd p P h1 ?_, h2, h3⟩
      rw [h3]
      exact busy u d (by rw [show s.pc u = _ from hu]; rfl)
    · intro u d n p v hu
      obtain ⟨P, h1, h2, h3, h4⟩ := hs.mineS u d n p v hu
      refine ⟨P, fwd p P h1 ?_, h2, h3, h4⟩
      rw [h3]
      exact busy u d (by rw [show s.pc u = _ from hu]; rfl)
    · intro u d n D' hu hd p hp
      obtain ⟨D, a1, a2, _⟩ := get d D' hd
      have hp : (put s.arrs t [] u)[D'.key]? = some (some p) := hp
      rw [put_ne _ _ (busy u d (by rw [show s.pc u = _ from hu]; rfl)), a2] at hp
      exact hs.alone u d n D hu a1 p hp
    · intro u d acc l D hu
      exact absurd hu (noRead u d acc l)
    · intro d D' hd
      obtain ⟨D, a1, _, _, _, a5, _⟩ := get d D' hd
      show (D'.dead + sumOf parts' D'.list) % W = total d es % W
      rw [a5]
      exact hv.mod d D a1
    · intro d D' hd hlt
      obtain ⟨D, a1, _, _, _, _, a6⟩ := get d D' hd
      have := hv.exact d D a1 hlt
      have hlt : total d es < W := hlt
      show D'.dead + sumOf parts' D'.list = total d es
      rw [a6 (by omega), this]
    · intro u d acc l hu
      exact absurd hu (noRead u d acc l)
    · intro u d acc l hu
      exact absurd hu (noRead u d acc l)
  · rw [if_neg hc]
    trivial

/-- An idle thread, and one that is working on a counter, but not reading. -/
theorem inc_ok {s : State} {es : List Ev} (h : Inv s es) (t : Tid) (c : Ctr) (n : Nat) (hg : Legal s t (.inc c n)) : Fine es (act s t (.inc c n)) := by
  unfold act
  dsimp only
  by_cases hi : s.pc t = .idle
  · rw [if_pos hi]
    refine ⟨str_plain h.str t _ (by intro c acc l e; rw [hi] at e; cases e) (by intro _ _ _ e; cases e) ?_ (by intro _ _ _ e; cases e)
      (by intro _ _ _ _ e; cases e) (by intro _ _ _ e; cases e), sums_plain h.sums t _ (by intro _ e; cases e) (by intro _ _ _ e; cases e)⟩
    intro d e
    cases e
    exact hg
  · rw [if_neg hi]
    trivial

theorem read_ok {s : State} {es : List Ev} (h : Inv s es) (t : Tid) (c : Ctr) (hg : Legal s t (.read c)) : Fine es (act s t (.read c)) := by
  unfold act
  dsimp only
  by_cases hi : s.pc t = .idle
  · rw [if_pos hi]
    have hb : before t (.asked t c :: es) = es := if_pos rfl
    have hq : ∀ u, u ≠ t → Quiet u (.asked t c) := by
      intro u hu d e
      cases e
      exact hu rfl
    refine ⟨str_plain h.str t _ (by intro c acc l e; rw [hi] at e; cases e) (by intro _ _ _ e; cases e) ?_ (by intro _ _ _ e; cases e)
      (by intro _ _ _ _ e; cases e) (by intro _ _ _ e; cases e), sums_pc h.sums t _ s.lock (fun _ => rfl) (fun u hu => before_cons (hq u hu))
        (fun u d hu ha => ha.cons (hq u hu)) ?_ (by intro _ _ _ e; cases e) (by intro _ _ _ e; cases e) (by intro _ _ _ e; cases e) ?_⟩
    · intro d e
      cases e
      exact hg
    · intro d _
      show total d (before t (.asked t c :: es)) ≤ _
      rw [hb]
      exact Nat.le_refl _
    · intro d e
      rcases e with e | ⟨_, _, e⟩
      · cases e
        exact Asked.now t c es
      · cases e
  · rw [if_neg hi]
    trivial

theorem fetch_ok {s : State} {es : List Ev} (h : Inv s es) {t : Tid} {c n : Nat} (p : PartAddr) (ht : s.pc t = .fetch c n) : Fine es (goOn s t p) := by
  have hs := h.str
  obtain ⟨C, hC⟩ := Option.ne_none_iff_exists'.1 (hs.live t c (by rw [ht]; rfl))
  have nr : ∀ d acc l, s.pc t ≠ .reading d acc l := by intro d acc l e; rw [ht] at e; cases e
  unfold goOn
  simp only [ht, hC]
  have plain : (∀ q, (s.arrs t)[C.key]? ≠ some (some q)) → Fine es (.done { s with pc := put s.pc t (.alloc c n) } none) := by
    intro hq
    refine ⟨str_plain hs t _ nr (by intro _ _ _ e; cases e) ?_ (by intro _ _ _ e; cases e) (by intro _ _ _ _ e; cases e) ?_,
      sums_plain h.sums t _ (by intro _ e; cases e) (by intro _ _ _ e; cases e)⟩
    · intro d e
      cases e
      rw [hC]
      intro e
      cases e
    · intro d m D e hD
      cases e
      rw [hC] at hD
      cases hD
      exact hq
  rcases he : (s.arrs t)[C.key]? with _ | _ | q
  · exact plain (by intro q e; rw [he] at e; cases e)
  · exact plain (by intro q e; rw [he] at e; cases e)
  · obtain ⟨P, D, h1, h2, h3, h4⟩ := hs.arr t C.key q he
    have ho := hs.keys _ _ D C h3 hC h4
    refine ⟨str_plain hs t _ nr (by intro _ _ _ e; cases e) ?_ ?_ (by intro _ _ _ _ e; cases e) (by intro _ _ _ e; cases e),
      sums_plain h.sums t _ (by intro _ e; cases e) (by intro _ _ _ e; cases e)⟩
    · intro d e
      cases e
      rw [hC]
      intro e
      cases e
    · intro d m r e
      cases e
      exact ⟨P, h1, ho, h2⟩

theorem load_ok {s : State} {es : List Ev} (h : Inv s es) {t : Tid} {c n : Nat} {q : PartAddr} (p : PartAddr) (ht : s.pc t = .load c n q) : Fine es (goOn s t p) := by
  have hs := h.str
  obtain ⟨P, h1, h2, h3⟩ := hs.mineL t c n q ht
  have nr : ∀ d acc l, s.pc t ≠ .reading d acc l := by intro d acc l e; rw [ht] at e; cases e
  unfold goOn
  simp only [ht, h1]
  refine ⟨str_plain hs t _ nr (by intro _ _ _ e; cases e) ?_ (by intro _ _ _ e; cases e) ?_ (by intro _ _ _ e; cases e),
    sums_plain h.sums t _ (by intro _ e; cases e) (by intro _ _ _ e; cases e)⟩
  · intro d e
    cases e
    exact hs.live t c (by rw [ht]; rfl)
  · intro d m r v e
    cases e
    exact ⟨P, h1, h2, h3, rfl⟩

theorem await_ok {s : State} {es : List Ev} (h : Inv s es) {t : Tid} {c : Nat} (p : PartAddr) (ht : s.pc t = .await c) : Fine es (goOn s t p) := by
  have hs := h.str
  have hv := h.sums
  obtain ⟨C, hC⟩ := Option.ne_none_iff_exists'.1 (hs.live t c (by rw [ht]; rfl))
  unfold goOn
  simp only [ht, hC]
  by_cases hl : s.lock = none
  · rw [if_pos hl]
    refine ⟨str_pc hs t _ (some t) ?_ ⟨fun _ => ⟨_, _, _, rfl⟩, fun _ => rfl⟩ ?_ (by intro _ _ _ e; cases e) (by intro _ _ _ _ e; cases e)
      (by intro _ _ _ e; cases e) ?_, sums_pc (es' := es) hv t _ (some t) (fun _ => rfl) (fun _ _ => rfl) (fun _ _ _ h => h) (by intro _ e; cases e) ?_ ?_ ?_ ?_⟩
    · intro u hu
      rw [hl]
      constructor
      · intro e
        cases e
        exact absurd rfl hu
      · intro e
        cases e
    · intro d e
      cases e
      rw [hC]
      intro e
      cases e
    · intro d acc l D e hD
      cases e
      rw [hC] at hD
      cases hD
      exact List.suffix_refl _
    · intro d acc l e
      cases e
      exact hv.awaitLo t c ht
    · intro d acc l e hlt
      cases e
      rw [hv.exact c C hC hlt]
      exact ⟨hv.awaitLo t c ht, Nat.le_refl _⟩
    · intro d acc l e _
      cases e
      exact hv.mod c C hC
    · intro d e
      rcases e with e | ⟨_, _, e⟩
      · cases e
      · cases e
        exact hv.asked t c (.inl ht)
  · rw [if_neg hl]
    trivial

theorem reading_ok {s : State} {es : List Ev} (h : Inv s es) {t : Tid} {c acc : Nat} {l : List PartAddr} (p : PartAddr) (ht : s.pc t = .reading c acc l) :
    Fine es (goOn s t p) := by
  have hs := h.str
  have hv := h.sums
  have hl := hs.holder t c acc l ht
  obtain ⟨C, hC⟩ := Option.ne_none_iff_exists'.1 (hs.live t c (by rw [ht]; rfl))
  unfold goOn
  simp only [ht]
  cases l with
  | nil =>
    refine ⟨str_pc hs t _ none ?_ ⟨fun e => (by cases e), fun ⟨_, _, _, e⟩ => (by cases e)⟩ (by intro _ e; cases e) (by intro _ _ _ e; cases e)
      (by intro _ _ _ _ e; cases e) (by intro _ _ _ e; cases e) (by intro _ _ _ _ e; cases e),
      sums_pc hv t _ none (fun _ => rfl) (fun u _ => before_cons (fun _ e => by cases e)) (fun u d _ ha => ha.cons (fun _ e => by cases e))
      (by intro _ e; cases e) (by intro _ _ _ e; cases e) (by intro _ _ _ e; cases e) (by intro _ _ _ e; cases e) ?_⟩
    · intro u hu
      rw [hl]
      constructor
      · intro e
        cases e
      · intro e
        cases e
        exact absurd rfl hu
    · intro d e
      rcases e with e | ⟨_, _, e⟩ <;> cases e
  | cons q l =>
    have hsub := hs.rest t c acc (q :: l) C ht hC
    obtain ⟨P, h1, h2, _⟩ := hs.part c C hC q (hsub.subset List.mem_cons_self)
    simp only [h1]
    have hb := hv.between t c acc (q :: l) ht
    have hst := hv.still t c acc (q :: l) ht
    rw [sumOf_cons, val_some h1] at hb hst
    refine ⟨str_pc hs t _ s.lock (fun _ _ => Iff.rfl) ⟨fun _ => ⟨_, _, _, rfl⟩, fun _ => hl⟩ ?_ (by intro _ _ _ e; cases e) (by intro _ _ _ _ e; cases e)
      (by intro _ _ _ e; cases e) ?_, sums_pc (es' := es) hv t _ s.lock (fun _ => rfl) (fun _ _ => rfl) (fun _ _ _ h => h) (by intro _ e; cases e) ?_ ?_ ?_ ?_⟩
    · intro d e
      cases e
      rw [hC]
      intro e
      cases e
    · intro d acc' l' D e hD
      cases e
      rw [hC] at hD
      cases hD
      exact (List.suffix_cons q l).trans hsub
    · intro d acc' l' e
      cases e
      exact hv.readLo t c acc _ ht
    · intro d acc' l' e hlt
      cases e
      have := hb hlt
      have hm : (acc + P.sum) % W = acc + P.sum := Nat.mod_eq_of_lt (by omega)
      rw [hm]
      omega
    · intro d acc' l' e heq
      cases e
      have := hst heq
      rw [← Nat.add_assoc] at this
      rw [Nat.mod_add_mod]
      exact this
    · intro d e
      rcases e with e | ⟨_, _, e⟩
      · cases e
      · cases e
        exact hv.asked t c (.inr ⟨acc, _, ht⟩)

theorem alloc_ok {s : State} {es : List Ev} (h : Inv s es) {t : Tid} {c n : Nat} (p : PartAddr) (ht : s.pc t = .alloc c n) : Fine es (goOn s t p) := by
  have hs := h.str
  have hv := h.sums
  obtain ⟨C, hC⟩ := Option.ne_none_iff_exists'.1 (hs.live t c (by rw [ht]; rfl))
  unfold goOn
  simp only [ht, hC]
  by_cases hl : s.lock = none ∧ s.parts p = none
  · rw [if_pos hl]
    obtain ⟨hl, hp⟩ := hl
    rw [storeAt_ok (grow_length _ _)]
    have alone := hs.alone t c n C ht hC
    have noRead : ∀ u d acc l, s.pc u ≠ .reading d acc l := by
      intro u d acc l e
      have := hs.holder u d acc l e
      rw [hl] at this
      cases this
    have get : ∀ d D', put s.ctrs c (some { C with list := p :: C.list }) d = some D' →
        (d = c ∧ D' = { C with list := p :: C.list }) ∨ (d ≠ c ∧ s.ctrs d = some D') := by
      intro d D hd
      by_cases e : d = c
      · subst e
        rw [put_same] at hd
        cases hd
        exact .inl ⟨rfl, rfl⟩
      · rw [put_ne _ _ e] at hd
        exact .inr ⟨e, hd⟩
    have keep : ∀ d D, s.ctrs d = some D → ∃ D', put s.ctrs c (some { C with list := p :: C.list }) d = some D' ∧ D'.key = D.key ∧ ∀ q ∈ D.list, q ∈ D'.list := by
      intro d D hd
      by_cases e : d = c
      · subst e
        rw [hC] at hd
        cases hd
        exact ⟨_, put_same _ _ _, rfl, fun q hq => List.mem_cons_of_mem _ hq⟩
      · exact ⟨D, by rw [put_ne _ _ e]; exact hd, rfl, fun q hq => hq⟩
    have old : ∀ q P, s.parts q = some P → put s.parts p (some ⟨0, c, t⟩) q = some P := by
      intro q P hq
      rw [put_ne]
      · exact hq
      · rintro rfl
        rw [hp] at hq
        cases hq
    have ent : ∀ (u k : Nat) q, (put s.arrs t ((grow (s.arrs t) C.key).set C.key (some p)) u)[k]? = some (some q) ↔
        (u = t ∧ k = C.key ∧ q = p) ∨ (¬ (u = t ∧ k = C.key) ∧ (s.arrs u)[k]? = some (some q)) := by
      intro u k q
      by_cases hu : u = t
      · subst hu
        rw [put_same, List.getElem?_set]
        by_cases hk : C.key = k
        · subst hk
          rw [if_pos rfl, if_pos (grow_length _ _)]
          constructor
          · intro e
            cases e
            exact .inl ⟨rfl, rfl, rfl⟩
          · rintro (⟨_, _, rfl⟩ | ⟨e, _⟩)
            · rfl
            · exact absurd ⟨rfl, rfl⟩ e
        · rw [if_neg hk, grow_some]
          constructor
          · exact fun e => .inr ⟨fun e => hk e.2.symm, e⟩
          · rintro (⟨_, e, _⟩ | ⟨_, e⟩)
            · exact absurd e.symm hk
            · exact e
      · rw [put_ne _ _ hu]
        constructor
        · exact fun e => .inr ⟨fun e => hu e.1, e⟩
        · rintro (⟨e, _⟩ | ⟨_, e⟩)
          · exact absurd e hu
          · exact e
    have fresh : ∀ d D, s.ctrs d = some D → p ∉ D.list := fun d D hd => not_mem_of_none hs hp hd
    have pcs : ∀ u x, put s.pc t (.load c n p) u = x → x ≠ .load c n p → s.pc u = x := by
      intro u x hu hx
      by_cases e : u = t
      · subst e
        rw [put_same] at hu
        exact absurd hu.symm hx
      · rw [put_ne _ _ e] at hu
        exact hu
    refine ⟨⟨?_, ?_, ?_, ?_, ?_, ?_, ?_, ?_, ?_, ?_, ?_, ?_, ?_⟩, ⟨?_, ?_, ?_, ?_, ?_, ?_, ?_⟩⟩
    · intro d D hd q hq
      rcases get d D hd with ⟨rfl, rfl⟩ | ⟨e, hd⟩
      · rcases List.mem_cons.1 hq with rfl | hq
        · exact ⟨_, put_same _ _ _, rfl, (ent _ _ _).2 (.inl ⟨rfl, rfl, rfl⟩)⟩
        · obtain ⟨P, h1, h2, h3⟩ := hs.part d C hC q hq
          refine ⟨P, old q P h1, h2, (ent _ _ _).2 (.inr ⟨?_, h3⟩)⟩
          rintro ⟨e, _⟩
          rw [e] at h3
          exact alone q h3
      · obtain ⟨P, h1, h2, h3⟩ := hs.part d D hd q hq
        refine ⟨P, old q P h1, h2, (ent _ _ _).2 (.inr ⟨?_, h3⟩)⟩
        rintro ⟨_, hk⟩
        exact e (hs.keys d c D C hd hC hk)
    · intro d D hd
      rcases get d D hd with ⟨rfl, rfl⟩ | ⟨e, hd⟩
      · exact List.nodup_cons.2 ⟨fresh d C hC, hs.nodup d C hC⟩
      · exact hs.nodup d D hd
    · intro q P hq
      have hq : put s.parts p (some ⟨0, c, t⟩) q = some P := hq
      by_cases e : q = p
      · subst e
        rw [put_same] at hq
        cases hq
        exact ⟨_, put_same _ _ _, List.mem_cons_self⟩
      · rw [put_ne _ _ e] at hq
        obtain ⟨D, h1, h2⟩ := hs.owned q P hq
        obtain ⟨D', a1, _, a3⟩ := keep _ D h1
        exact ⟨D', a1, a3 q h2⟩
    · intro u k q hq
      rcases (ent u k q).1 hq with ⟨rfl, rfl, rfl⟩ | ⟨_, hq⟩
      · exact ⟨_, _, put_same _ _ _, rfl, put_same _ _ _, rfl⟩
      · obtain ⟨P, D, h1, h2, h3, h4⟩ := hs.arr u k q hq
        obtain ⟨D', a1, a2, _⟩ := keep _ D h3
        exact ⟨P, D', old q P h1, h2, a1, by rw [a2]; exact h4⟩
    · intro d D hd
      rcases get d D hd with ⟨rfl, rfl⟩ | ⟨e, hd⟩
      · exact hs.used d C hC
      · exact hs.used d D hd
    · intro d d' D D' hd hd' hk
      rcases get d D hd with ⟨e, eD⟩ | ⟨e, hd2⟩
      · rcases get d' D' hd' with ⟨e', eD'⟩ | ⟨e', hd2'⟩
        · rw [e, e']
        · rw [e]
          exact hs.keys c d' C D' hC hd2' (by rw [eD] at hk; exact hk)
      · rcases get d' D' hd' with ⟨e', eD'⟩ | ⟨e', hd2'⟩
        · rw [e']
          exact hs.keys d c D C hd2 hC (by rw [eD'] at hk; exact hk)
        · exact hs.keys d d' D D' hd2 hd2' hk
    · intro u d hu e
      have hu : (put s.pc t (.load c n p) u).about = some d := hu
      have hld : s.ctrs d ≠ none := by
        by_cases hut : u = t
        · subst hut
          rw [put_same] at hu
          cases hu
          rw [hC]
          intro e
          cases e
        · rw [put_ne _ _ hut] at hu
          exact hs.live u d hu
      obtain ⟨D, hD⟩ := Option.ne_none_iff_exists'.1 hld
      obtain ⟨D', a1, _⟩ := keep d D hD
      have e : put s.ctrs c _ d = none := e
      rw [a1] at e
      cases e
    · intro u d m q hu
      have hu : put s.pc t (.load c n p) u = .load d m q := hu
      by_cases hut : u = t
      · subst hut
        rw [put_same] at hu
        cases hu
        exact ⟨_, put_same _ _ _, rfl, rfl⟩
      · rw [put_ne _ _ hut] at hu
        obtain ⟨P, h1, h2⟩ := hs.mineL u d m q hu
        exact ⟨P, old q P h1, h2⟩
    · intro u d m q v hu
      obtain ⟨P, h1, h2⟩ := hs.mineS u d m q v (pcs u _ hu (by intro e; cases e))
      exact ⟨P, old q P h1, h2⟩
    · intro u d m D hu hd q hq
      have hu' := pcs u _ hu (by intro e; cases e)
      have hne : u ≠ t := by
        rintro rfl
        have hu : put s.pc u (.load c n p) u = _ := hu
        rw [put_same] at hu
        cases hu
      rcases (ent u D.key q).1 hq with ⟨e, _⟩ | ⟨_, hq2⟩
      · exact hne e
      · rcases get d D hd with ⟨e, eD⟩ | ⟨e, hd2⟩
        · rw [e] at hu'
          rw [eD] at hq2
          exact hs.alone u c m C hu' hC q hq2
        · exact hs.alone u d m D hu' hd2 q hq2
    · intro u d acc l hu
      exact absurd (pcs u _ hu (by intro e; cases e)) (noRead u d acc l)
    · intro u hu
      have hu : s.lock = some u := hu
      rw [hl] at hu
      cases hu
    · intro u d acc l D hu
      exact absurd (pcs u _ hu (by intro e; cases e)) (noRead u d acc l)
    · intro d D hd
      rcases get d D hd with ⟨rfl, rfl⟩ | ⟨e, hd⟩
      · show (C.dead + sumOf (put s.parts p (some ⟨0, d, t⟩)) (p :: C.list)) % W = _
        rw [sumOf_cons, sumOf_put_other _ (fresh d C hC), val_some (put_same _ _ _)]
        show (C.dead + (0 + sumOf s.parts C.list)) % W = total d es % W
        rw [Nat.zero_add]
        exact hv.mod d C hC
      · show (D.dead + sumOf (put s.parts p (some ⟨0, c, t⟩)) D.list) % W = _
        rw [sumOf_put_other _ (fresh d D hd)]
        exact hv.mod d D hd
    · intro d D hd
      rcases get d D hd with ⟨rfl, rfl⟩ | ⟨e, hd⟩
      · show _ → C.dead + sumOf (put s.parts p (some ⟨0, d, t⟩)) (p :: C.list) = _
        rw [sumOf_cons, sumOf_put_other _ (fresh d C hC), val_some (put_same _ _ _)]
        show _ → C.dead + (0 + sumOf s.parts C.list) = total d es
        rw [Nat.zero_add]
        exact hv.exact d C hC
      · show _ → D.dead + sumOf (put s.parts p (some ⟨0, c, t⟩)) D.list = _
        rw [sumOf_put_other _ (fresh d D hd)]
        exact hv.exact d D hd
    · intro u d hu
      exact hv.awaitLo u d (pcs u _ hu (by intro e; cases e))
    · intro u d acc l hu
      exact absurd (pcs u _ hu (by intro e; cases e)) (noRead u d acc l)
    · intro u d acc l hu
      exact absurd (pcs u _ hu (by intro e; cases e)) (noRead u d acc l)
    · intro u d acc l hu
      exact absurd (pcs u _ hu (by intro e; cases e)) (noRead u d acc l)
    · intro u d hu
      rcases hu with hu | ⟨acc, l, hu⟩
      · exact hv.asked u d (.inl (pcs u _ hu (by intro e; cases e)))
      · exact absurd (pcs u _ hu (by intro e; cases e)) (noRead u d acc l)
  · rw [if_neg hl]
    trivial

theorem store_ok {s : State} {es : List Ev} (h : Inv s es) {t : Tid} {c n v : Nat} {q : PartAddr} (p : PartAddr) (ht : s.pc t = .store c n q v) :
    Fine es (goOn s t p) := by
  have hs := h.str
  have hv := h.sums
  obtain ⟨P, h1, h2, h3, h4⟩ := hs.mineS t c n q v ht
  obtain ⟨C, hC⟩ := Option.ne_none_iff_exists'.1 (hs.live t c (by rw [ht]; rfl))
  have hqC : q ∈ C.list := part_same hs h1 (by rw [h2]; exact hC)
  unfold goOn
  simp only [ht, h1]
  have pcs : ∀ u x, put s.pc t .idle u = x → x ≠ .idle → u ≠ t ∧ s.pc u = x := by
    intro u x hu hx
    by_cases e : u = t
    · subst e
      rw [put_same] at hu
      exact absurd hu.symm hx
    · rw [put_ne _ _ e] at hu
      exact ⟨e, hu⟩
  have back : ∀ r R, put s.parts q (some { P with sum := (v + n) % W }) r = some R → ∃ R', s.parts r = some R' ∧ R'.owner = R.owner ∧ R'.arr = R.arr := by
    intro r R hr
    by_cases e : r = q
    · subst e
      rw [put_same] at hr
      cases hr
      exact ⟨P, h1, rfl, rfl⟩
    · rw [put_ne _ _ e] at hr
      exact ⟨R, hr, rfl, rfl⟩
  have fwd : ∀ r R, s.parts r = some R → ∃ R', put s.parts q (some { P with sum := (v + n) % W }) r = some R' ∧ R'.owner = R.owner ∧ R'.arr = R.arr ∧
      (r ≠ q → R' = R) := by
    intro r R hr
    by_cases e : r = q
    · subst e
      rw [h1] at hr
      cases hr
      exact ⟨_, put_same _ _ _, rfl, rfl, fun e => absurd rfl e⟩
    · exact ⟨R, by rw [put_ne _ _ e]; exact hr, rfl, rfl, fun _ => rfl⟩
  have notIn : ∀ d D, d ≠ c → s.ctrs d = some D → q ∉ D.list := by
    intro d D e hd hm
    obtain ⟨R, a1, a2, _⟩ := hs.part d D hd q hm
    rw [h1] at a1
    cases a1
    exact e (by rw [← a2, h2])
  have totC : total c (.add c n :: es) = total c es + n := if_pos rfl
  have totD : ∀ d, d ≠ c → total d (.add c n :: es) = total d es := fun d e => if_neg (Ne.symm e)
  have bef : ∀ u, before u (.add c n :: es) = before u es := fun u => rfl
  -- lists with the part
  have lst : ∀ l : List PartAddr, l.Nodup → q ∈ l → sumOf (put s.parts q (some { P with sum := (v + n) % W })) l + v = sumOf s.parts l + (v + n) % W := by
    intro l hn hm
    have := sumOf_put (parts := s.parts) ((v + n) % W) hn h1 hm
    rw [h4] at this
    exact this
  have lv : ∀ l : List PartAddr, q ∈ l → v ≤ sumOf s.parts l := by
    intro l hm
    rw [sumOf_erase _ hm, val_some h1, h4]
    omega
  have lmod : ∀ (l : List PartAddr) (a : Nat), l.Nodup → q ∈ l →
      (a + sumOf (put s.parts q (some { P with sum := (v + n) % W })) l) % W = (a + sumOf s.parts l + n) % W := by
    intro l a hn hm
    have e1 := lst l hn hm
    have e2 := lv l hm
    have e3 : a + sumOf (put s.parts q (some { P with sum := (v + n) % W })) l = (a + sumOf s.parts l - v) + (v + n) % W := by omega
    rw [e3, Nat.add_mod_mod]
    congr 1
    omega
  refine ⟨⟨?_, hs.nodup, ?_, ?_, hs.used, hs.keys, ?_, ?_, ?_, ?_, ?_, ?_, ?_⟩, ⟨?_, ?_, ?_, ?_, ?_, ?_, ?_⟩⟩
  · intro d D hd r hr
    obtain ⟨R, a1, a2, a3⟩ := hs.part d D hd r hr
    obtain ⟨R', b1, b2, b3, _⟩ := fwd r R a1
    exact ⟨R', b1, by rw [b2]; exact a2, by rw [b3]; exact a3⟩
  · intro r R hr
    obtain ⟨R', a1, a2, _⟩ := back r R hr
    obtain ⟨D, b1, b2⟩ := hs.owned r R' a1
    exact ⟨D, by rw [← a2]; exact b1, b2⟩
  · intro u k r hr
    obtain ⟨R, D, a1, a2, a3, a4⟩ := hs.arr u k r hr
    obtain ⟨R', b1, b2, b3, _⟩ := fwd r R a1
    exact ⟨R', D, b1, by rw [b3]; exact a2, by rw [b2]; exact a3, a4⟩
  · intro u d hu
    have hu : (put s.pc t .idle u).about = some d := hu
    by_cases e : u = t
    · subst e
      rw [put_same] at hu
      cases hu
    · rw [put_ne _ _ e] at hu
      exact hs.live u d hu
  · intro u d m r hu
    obtain ⟨_, hu⟩ := pcs u _ hu (by intro e; cases e)
    obtain ⟨R, a1, a2, a3⟩ := hs.mineL u d m r hu
    obtain ⟨R', b1, b2, b3, _⟩ := fwd r R a1
    exact ⟨R', b1, by rw [b2]; exact a2, by rw [b3]; exact a3⟩
  · intro u d m r w hu
    obtain ⟨hne, hu⟩ := pcs u _ hu (by intro e; cases e)
    obtain ⟨R, a1, a2, a3, a4⟩ := hs.mineS u d m r w hu
    have hrq : r ≠ q := by
      rintro rfl
      rw [h1] at a1
      cases a1
      exact hne (by rw [← a3, h3])
    obtain ⟨R', b1, b2, b3, b4⟩ := fwd r R a1
    rw [b4 hrq] at b1
    exact ⟨R, b1, a2, a3, a4⟩
  · intro u d m D hu hd
    obtain ⟨_, hu⟩ := pcs u _ hu (by intro e; cases e)
    exact hs.alone u d m D hu hd
  · intro u d acc l hu
    obtain ⟨_, hu⟩ := pcs u _ hu (by intro e; cases e)
    exact hs.holder u d acc l hu
  · intro u hu
    obtain ⟨d, acc, l, e⟩ := hs.held u hu
    refine ⟨d, acc, l, ?_⟩
    show put s.pc t .idle u = _
    rw [put_ne]
    · exact e
    · rintro rfl
      rw [ht] at e
      cases e
  · intro u d acc l D hu
    obtain ⟨_, hu⟩ := pcs u _ hu (by intro e; cases e)
    exact hs.rest u d acc l D hu
  · intro d D hd
    show (D.dead + sumOf (put s.parts q (some { P with sum := (v + n) % W })) D.list) % W = total d (.add c n :: es) % W
    by_cases e : d = c
    · subst e
      have hd : s.ctrs d = some D := hd
      rw [hC] at hd
      cases hd
      have := hv.mod d C hC
      rw [totC, lmod _ _ (hs.nodup d C hC) hqC, Nat.add_mod, this, ← Nat.add_mod]
    · rw [totD d e, sumOf_put_other _ (notIn d D e hd)]
      exact hv.mod d D hd
  · intro d D hd
    show total d (.add c n :: es) < W → D.dead + sumOf (put s.parts q (some { P with sum := (v + n) % W })) D.list = total d (.add c n :: es)
    by_cases e : d = c
    · subst e
      have hd : s.ctrs d = some D := hd
      rw [hC] at hd
      cases hd
      rw [totC]
      intro hlt
      have e1 := hv.exact d C hC (by omega)
      have e2 := lst _ (hs.nodup d C hC) hqC
      have e3 := lv _ hqC
      have e4 : (v + n) % W = v + n := Nat.mod_eq_of_lt (by omega)
      rw [e4] at e2 ⊢
      omega
    · rw [totD d e, sumOf_put_other _ (notIn d D e hd)]
      exact hv.exact d D hd
  · intro u d hu
    obtain ⟨_, hu⟩ := pcs u _ hu (by intro e; cases e)
    show total d (before u (.add c n :: es)) ≤ total d (.add c n :: es)
    have := hv.awaitLo u d hu
    rw [bef]
    by_cases e : d = c
    · subst e
      rw [totC]
      omega
    · rw [totD d e]
      exact this
  · intro u d acc l hu
    obtain ⟨_, hu⟩ := pcs u _ hu (by intro e; cases e)
    show total d (before u (.add c n :: es)) ≤ total d (.add c n :: es)
    have := hv.readLo u d acc l hu
    rw [bef]
    by_cases e : d = c
    · subst e
      rw [totC]
      omega
    · rw [totD d e]
      exact this
  · intro u d acc l hu
    obtain ⟨_, hu⟩ := pcs u _ hu (by intro e; cases e)
    show total d (.add c n :: es) < W → total d (before u (.add c n :: es)) ≤ acc + sumOf (put s.parts q (some { P with sum := (v + n) % W })) l ∧
      acc + sumOf (put s.parts q (some { P with sum := (v + n) % W })) l ≤ total d (.add c n :: es)
    have hb := hv.between u d acc l hu
    rw [bef]
    obtain ⟨D, hD⟩ := Option.ne_none_iff_exists'.1 (hs.live u d (by rw [hu]; rfl))
    have hsub := hs.rest u d acc l D hu hD
    by_cases e : d = c
    · subst e
      rw [totC]
      intro hlt
      have hb := hb (by omega)
      by_cases hm : q ∈ l
      · have e2 := lst l (hsub.sublist.nodup (hs.nodup d D hD)) hm
        have e3 := lv l hm
        have e4 : (v + n) % W = v + n := Nat.mod_eq_of_lt (by omega)
        rw [e4] at e2 ⊢
        omega
      · rw [sumOf_put_other _ hm]
        omega
    · rw [totD d e, sumOf_put_other _ (fun hm => notIn d D e hD (hsub.subset hm))]
      exact hb
  · intro u d acc l hu
    obtain ⟨_, hu⟩ := pcs u _ hu (by intro e; cases e)
    show total d (.add c n :: es) = total d (before u (.add c n :: es)) → (acc + sumOf (put s.parts q (some { P with sum := (v + n) % W })) l) % W =
      total d (.add c n :: es) % W
    have hst := hv.still u d acc l hu
    have hlo := hv.readLo u d acc l hu
    rw [bef]
    obtain ⟨D, hD⟩ := Option.ne_none_iff_exists'.1 (hs.live u d (by rw [hu]; rfl))
    have hsub := hs.rest u d acc l D hu hD
    by_cases e : d = c
    · subst e
      rw [totC]
      intro heq
      have hn : n = 0 := by omega
      have hst := hst (by omega)
      by_cases hm : q ∈ l
      · rw [lmod l acc (hsub.sublist.nodup (hs.nodup d D hD)) hm, hn]
        exact hst
      · rw [sumOf_put_other _ hm, hn]
        exact hst
    · rw [totD d e, sumOf_put_other _ (fun hm => notIn d D e hD (hsub.subset hm))]
      exact hst
  · intro u d hu
    rcases hu with hu | ⟨acc, l, hu⟩
    · exact Asked.cons (hv.asked u d (.inl (pcs u _ hu (by intro e; cases e)).2)) (fun _ e => by cases e)
    · exact Asked.cons (hv.asked u d (.inr ⟨acc, l, (pcs u _ hu (by intro e; cases e)).2⟩)) (fun _ e => by cases e)

/-- Every step a correct program takes. -/
theorem act_ok {s : State} {es : List Ev} (h : Inv s es) (t : Tid) (a : Act) (hg : Legal s t a) : Fine es (act s t a) := by
  cases a with
  | create c => exact create_ok h t c
  | destroy c => exact destroy_ok h t c hg
  | inc c n => exact inc_ok h t c n hg
  | read c => exact read_ok h t c hg
  | exit => exact exit_ok h t
  | go p =>
    show Fine es (goOn s t p)
    rcases ht : s.pc t with _ | ⟨c, n⟩ | ⟨c, n⟩ | ⟨c, n, q⟩ | ⟨c, n, q, v⟩ | ⟨c⟩ | ⟨c, acc, l⟩
    · unfold goOn
      simp only [ht]
      trivial
    · exact fetch_ok h p ht
    · exact alloc_ok h p ht
    · exact load_ok h p ht
    · exact store_ok h p ht
    · exact await_ok h p ht
    · exact reading_ok h p ht

theorem run_inv {s : State} {es : List Ev} (h : Run s es) : Inv s es := by
  induction h with
  | init => exact inv_start
  | step _ hg ha ih =>
    have := act_ok ih _ _ hg
    rw [ha] at this
    exact this

end Verif.Count

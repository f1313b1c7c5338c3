import Verif.Lemmas.RusMixText
/-
The article of a line.
-/
namespace Libmorph
open Libmorph.Spec

/-! ### The kind of the alternation -/

theorem kind_words : ru "6" = [54] ∧ ru "9" = [57] ∧ ru "10" = [49, 48] ∧ ru "14" = [49, 52] ∧ ru "11" = [49, 49] ∧ ru "5c/c" = [53, 99, 47, 99] ∧
    ru "5*c/c" = [53, 42, 99, 47, 99] ∧ litBytes "5c/c" = [53, 99, 47, 99] ∧ litBytes "5*c/c" = [53, 42, 99, 47, 99] := by decide +kernel

theorem mixIndex_eq {w pos : Nat} (hw : w &&& 0x3f = pos) (h1 : 1 ≤ pos) (z : List Byte) : mixIndex w z = kindOf pos z := by
  obtain ⟨k1, k2, k3, k4, k5, k6, k7, k8, k9⟩ := kind_words
  rw [mixIndex, kindOf, hw, k1, k2, k3, k4, k5, k6, k7, k8, k9]
  by_cases h6 : pos ≤ 6
  · rw [if_pos h6, if_pos (show IsVerb pos from ⟨h1, h6⟩)]
    match z with
    | [] => decide
    | c :: r =>
      simp only [List.head?_cons, List.drop_succ_cons, List.drop_zero, List.any_cons, List.any_nil, List.isPrefixOf_cons₂, List.isPrefixOf_nil_left,
        Bool.and_true, Bool.or_false]
      by_cases c6 : c = 54
      · subst c6; simp
      by_cases c9 : c = 57
      · subst c9; simp
      by_cases c5 : c = 53
      · subst c5; simp
      by_cases c1 : c = 49
      · subst c1
        match r with
        | [] => simp
        | d :: r =>
          simp only [List.head?_cons]
          by_cases d0 : d = 48
          · subst d0; simp
          by_cases d4 : d = 52
          · subst d4; simp
          by_cases d1 : d = 49
          · subst d1; simp
          · simp [d0, d1, d4, Ne.symm d0, Ne.symm d1, Ne.symm d4]
      · simp [c6, c9, c5, c1, Ne.symm c6, Ne.symm c9, Ne.symm c5, Ne.symm c1]
  · rw [if_neg h6, if_neg (fun h => h6 h.2)]

theorem kindOf_le (pos : Nat) (z : List Byte) : kindOf pos z ≤ 2 := by
  rw [kindOf]
  split
  · split
    · decide
    · split <;> decide
  · decide

/-- The parts of the word information do not overlap. -/
theorem word_bits {pos : Nat} {plural : Bool} (h : pos < 63) (comm : List Byte) {w : Nat} (hw : w = typeBits pos plural + usageBits comm) :
    w &&& 0x3f = pos ∧ w < 2048 ∧ (w &&& 0x40 ≠ 0 ↔ plural = true) := by
  obtain ⟨k, hk, e⟩ := usageBits_shape comm
  subst hw
  rw [e]
  have ht : typeBits pos plural < 128 := typeBits_lt h
  refine ⟨?_, by omega, ?_⟩
  · rw [show (0x3f : Nat) = 2 ^ 6 - 1 from rfl, Nat.and_two_pow_sub_one_eq_mod, typeBits]
    split <;> omega
  · rw [show (0x40 : Nat) = 2 ^ 6 from rfl, Nat.and_two_pow, Nat.testBit_eq_decide_div_mod_eq, typeBits]
    cases plural
    · simp only [Bool.false_eq_true, if_false]
      have : (pos + 0 + 128 * k) / 2 ^ 6 % 2 = 0 := by omega
      rw [this]; simp
    · simp only [if_true]
      have : (pos + 64 + 128 * k) / 2 ^ 6 % 2 = 1 := by omega
      rw [this]; simp

theorem add_kind {w : Nat} (hw : w < 2048) (k : Nat) (hk : k ≤ 2) : w ||| (k &&& 3) <<< 11 = w + 2048 * k := by
  have e : k &&& 3 = k := by
    rw [show (3 : Nat) = 2 ^ 2 - 1 from rfl, Nat.and_two_pow_sub_one_eq_mod, Nat.mod_eq_of_lt (by omega)]
  rw [e, Nat.shiftLeft_eq, Nat.or_comm, Nat.mul_comm, ← Nat.two_pow_add_eq_or_of_lt (by simpa using hw), Nat.add_comm]

/-! ### The ending of the headword -/

theorem reflexive_iff (s : List Byte) : reflexive s = true ↔ 2 < s.length ∧ ru "ся" <:+ s := by
  have e : utf8to1251 "ся" = ru "ся" ∧ (ru "ся").length = 2 := by decide +kernel
  rw [reflexive, Bool.and_eq_true, decide_eq_true_eq, decide_eq_true_eq, e.1]
  refine and_congr_right fun _ => ?_
  constructor
  · intro h
    exact ⟨s.take (s.length - 2), by rw [← h]; exact List.take_append_drop _ _⟩
  · rintro ⟨b, rfl⟩
    rw [List.length_append, e.2, Nat.add_sub_cancel, List.drop_left]

theorem normalForm_eq {w pos : Nat} {plural : Bool} (hw : w &&& 0x3f = pos) (hp : w &&& 0x40 ≠ 0 ↔ plural = true) (h48 : pos < 48) (s : List Byte)
    (hnv : ¬ IsVerb pos) : normalForm w s = (nounLevels, headGram pos plural s) := by
  have h52 : pos ∈ [25, 26, 27, 28, 34, 36, 42, 52] ↔ pos ∈ [25, 26, 27, 28, 34, 36, 42] := by
    simp only [List.mem_cons, List.not_mem_nil, or_false]; omega
  have hr := reflexive_iff s
  simp only [normalForm, hw, headGram]
  rw [if_neg (show ¬ (1 ≤ pos ∧ pos ≤ 6) from hnv)]
  simp only [h52]
  by_cases hm : pos ∈ [25, 26, 27, 28, 34, 36, 42]
  · simp only [if_pos hm]
    by_cases hrr : reflexive s = true
    · simp only [if_pos hrr, if_pos (hr.1 hrr)]
      cases plural
      · rw [if_neg (fun h => by simpa using hp.1 h)]; simp
      · rw [if_pos (hp.2 rfl)]; simp
    · simp only [if_neg hrr, if_neg (fun h => hrr (hr.2 h))]
      cases plural
      · rw [if_neg (fun h => by simpa using hp.1 h)]; simp
      · rw [if_pos (hp.2 rfl)]; simp
  · simp only [if_neg hm]
    cases plural
    · rw [if_neg (fun h => by simpa using hp.1 h)]; simp
    · rw [if_pos (hp.2 rfl)]; simp

theorem normalForm_verb {w pos : Nat} (hw : w &&& 0x3f = pos) (hp : ¬ w &&& 0x40 ≠ 0) (s : List Byte) (hv : IsVerb pos) :
    normalForm w s = (verbLevels, 0x8001) := by
  simp only [normalForm, hw]
  rw [if_pos (show 1 ≤ pos ∧ pos ≤ 6 from hv), if_neg hp]

theorem headGram_lt (pos : Nat) (plural : Bool) (s : List Byte) : headGram pos plural s < 65536 := by
  rw [headGram]
  split <;> split <;> first | (split <;> omega) | omega

/-- A word has one ending of the headword. -/
theorem HeadEnding_unique {ftab : List Byte} {t pos : Nat} {plural : Bool} {base b b' : List Byte} {g g' : FlexInfo}
    (hs : HeadShape ftab t pos plural base) (h : HeadEnding ftab t (IsVerb pos) (headGram pos plural base) base b g)
    (h' : HeadEnding ftab t (IsVerb pos) (headGram pos plural base) base b' g') : b = b' := by
  obtain ⟨l, i, m, e, h1, h2, h3, h4⟩ := h
  obtain ⟨l', i', m', e', h1', h2', h3', h4'⟩ := h'
  rw [h1, Option.some.injEq] at h1'
  have hi : i = i' := by
    rcases List.append_eq_append_iff.1 h1' with ⟨k, k1, k2⟩ | ⟨k, k1, k2⟩
    · cases k with
      | nil => simp at k2; exact k2.1
      | cons x k =>
        simp only [List.cons_append, List.cons.injEq] at k2
        exact absurd ⟨b, h3.symm⟩ (h4' i (by rw [k1, k2.1]; simp) e g h2)
    · cases k with
      | nil => simp at k2; exact k2.1.symm
      | cons x k =>
        simp only [List.cons_append, List.cons.injEq] at k2
        exact absurd ⟨b', h3'.symm⟩ (h4 i' (by rw [k1, k2.1]; simp) e' g' h2')
  subst hi
  have he : e = e' := by
    rcases h2 with ⟨n1, _, _, rfl, _⟩ | ⟨n1, _, n3, rfl, _⟩ | ⟨n1, n2, n3, r, hr, hr8, rfl, _⟩ <;>
      rcases h2' with ⟨n1', _, _, rfl, _⟩ | ⟨n1', _, n3', rfl, _⟩ | ⟨n1', n2', n3', r', hr', hr8', rfl, _⟩
    · rfl
    · rfl
    · exact absurd n1' n1
    · rfl
    · rfl
    · exact absurd n3 n3'
    · exact absurd n1 n1'
    · exact absurd n3' n3
    · rw [HeadShape, if_pos n1] at hs
      obtain ⟨_, _, _, hfree, _⟩ := hs.onward i ⟨_, h1, by simp⟩ n2 n3
      have s1 : r.flex <:+ base := ⟨b ++ i.flex, by rw [h3]; simp⟩
      have s2 : r'.flex <:+ base := ⟨b' ++ i.flex, by rw [h3']; simp⟩
      rcases List.suffix_or_suffix_of_suffix s1 s2 with h | h
      · rw [hfree r r' hr hr' hr8 hr8' h]
      · rw [hfree r' r hr' hr hr8' hr8 h]
  subst he
  rw [h3] at h3'
  exact List.append_cancel_right h3'

theorem at_split (s : List Byte) (h : 64 ∈ s) : ∃ rest, s = s.takeWhile (· ≠ 64) ++ 64 :: rest ∧ 64 ∉ s.takeWhile (· ≠ 64) := by
  have hn : 64 ∉ s.takeWhile (· ≠ 64) := fun hm => by
    have := List.all_takeWhile (p := fun x => decide (x ≠ 64)) (l := s)
    rw [List.all_eq_true] at this
    simpa using this 64 hm
  cases hd : s.dropWhile (· ≠ 64) with
  | nil =>
    have : s = s.takeWhile (· ≠ 64) := by conv => lhs; rw [← List.takeWhile_append_dropWhile (p := fun x => decide (x ≠ 64)) (l := s), hd, List.append_nil]
    rw [this] at h
    exact absurd h hn
  | cons c t =>
    have hc := List.head?_dropWhile_not (fun x => decide (x ≠ 64)) s
    rw [hd] at hc
    simp only [List.head?_cons, Option.some.injEq] at hc
    have : c = 64 := by simpa using hc
    subst this
    refine ⟨t, ?_, hn⟩
    conv => lhs; rw [← List.takeWhile_append_dropWhile (p := fun x => decide (x ≠ 64)) (l := s), hd]

theorem at_unique {a b c d : List Byte} (ha : 64 ∉ a) (hc : 64 ∉ c) (h : a ++ 64 :: b = c ++ 64 :: d) : a = c := by
  induction a generalizing c with
  | nil =>
    cases c with
    | nil => rfl
    | cons x c => simp at h; exact absurd h.1 (by rintro rfl; simp at hc)
  | cons x a ih =>
    cases c with
    | nil => simp at h; exact absurd h.1 (by rintro rfl; simp at ha)
    | cons y c =>
      simp only [List.cons_append, List.cons.injEq] at h
      rw [h.1, ih (fun h' => ha (by simp [h'])) (fun h' => hc (by simp [h'])) h.2]

/-- The word without the ending of the headword: there is one or none, and the compiler finds it. -/
theorem stripNormal_iff {T : RusTabs} (hb : ∀ b ∈ T.ftab, b < 256) {w pos t : Nat} {plural : Bool} (hw : w &&& 0x3f = pos)
    (hp : w &&& 0x40 ≠ 0 ↔ plural = true) (h48 : pos < 48) (hpv : IsVerb pos → plural = false) {ind base : List Byte}
    (hs : HeadShape T.ftab t pos plural base) (hc : IsVerb pos → 58 ∉ ind) :
    ∃ r, stripNormal T ind w t base = some r ∧ ∀ bare, r = some bare ↔ Bare T.ftab t pos plural ind base bare := by
  rw [stripNormal]
  by_cases h64 : 64 ∈ base
  · rw [if_pos h64]
    obtain ⟨rest, e, hn⟩ := at_split base h64
    refine ⟨_, rfl, fun bare => ?_⟩
    rw [Option.some.injEq]
    constructor
    · rintro rfl
      exact Or.inl ⟨rest, e, hn⟩
    · rintro (⟨rest', e', hn'⟩ | ⟨h, _⟩ | ⟨h, _⟩)
      · rw [e] at e'
        exact at_unique hn hn' e'
      · exact absurd h64 h
      · exact absurd h64 h
  · rw [if_neg h64]
    have strip : (∃ b g, HeadEnding T.ftab t (IsVerb pos) (headGram pos plural base) base b g ∧
          stripStr T.ftab (normalForm w base).1 (normalForm w base).2 maxStrip t 0 base = some (true, b)) ∨
        ((¬ ∃ b g, HeadEnding T.ftab t (IsVerb pos) (headGram pos plural base) base b g) ∧
          ∃ s', stripStr T.ftab (normalForm w base).1 (normalForm w base).2 maxStrip t 0 base = some (false, s') ∧ (¬ IsVerb pos → s' = base)) := by
      by_cases hv : IsVerb pos
      · have hs' := hs
        rw [HeadShape, if_pos hv] at hs'
        rw [normalForm_verb hw (by rw [hp, hpv hv]; simp) base hv]
        have hvt : (IsVerb pos) = True := propext ⟨fun _ => trivial, fun _ => hv⟩
        rw [hvt]
        rcases verb_strip hs' (headGram pos plural base) 196604 base with h | ⟨h1, s', h2⟩
        · exact Or.inl h
        · exact Or.inr ⟨h1, s', h2, fun h => absurd trivial h⟩
      · have hs' := hs
        rw [HeadShape, if_neg hv] at hs'
        rw [normalForm_eq hw hp h48 base hv]
        have hvt : (IsVerb pos) = False := propext ⟨fun h => hv h, fun h => h.elim⟩
        rw [hvt]
        rcases noun_strip hb (headGram_lt pos plural base) hs' 196607 base with h | ⟨h1, h2⟩
        · exact Or.inl h
        · exact Or.inr ⟨h1, base, h2, fun _ => rfl⟩
    have hat : ∀ bare rest, base = bare ++ 64 :: rest → False := fun bare rest e => h64 (by rw [e]; simp)
    rcases strip with ⟨b, g, h1, h2⟩ | ⟨h1, s', h2, h3⟩
    · refine ⟨some b, by simp [h2], fun bare => ?_⟩
      rw [Option.some.injEq]
      constructor
      · rintro rfl
        exact Or.inr (Or.inl ⟨h64, g, h1⟩)
      · rintro (⟨rest, e, _⟩ | ⟨_, g', h'⟩ | ⟨_, h', _⟩)
        · exact (hat _ _ e).elim
        · exact HeadEnding_unique hs h1 h'
        · exact absurd ⟨b, g, h1⟩ h'
    · by_cases hcol : 58 ∈ ind
      · have hv : ¬ IsVerb pos := fun hv => hc hv hcol
        obtain rfl := h3 hv
        refine ⟨some s', by simp [h2, hcol], fun bare => ?_⟩
        rw [Option.some.injEq]
        constructor
        · rintro rfl
          exact Or.inr (Or.inr ⟨h64, h1, hcol, rfl⟩)
        · rintro (⟨rest, e, _⟩ | ⟨_, g', h'⟩ | ⟨_, _, _, e⟩)
          · exact (hat _ _ e).elim
          · exact absurd ⟨_, _, h'⟩ h1
          · exact e.symm
      · refine ⟨none, by simp [h2, hcol], fun bare => ?_⟩
        constructor
        · intro h; simp at h
        · rintro (⟨rest, e, _⟩ | ⟨_, g', h'⟩ | ⟨_, _, e, _⟩)
          · exact (hat _ _ e).elim
          · exact absurd ⟨_, _, h'⟩ h1
          · exact absurd e hcol

/-! ### The alternation -/

theorem resolveMix_iff {T : RusTabs} {S : RusSource} (hf : RusFit T S) {w pos : Nat} (hw : w &&& 0x3f = pos) (h1 : 1 ≤ pos) (hlt : w < 2048)
    (name ind comm : List Byte) (t : Nat) (bare post : List Byte) :
    ∃ a, resolveMix T name ind comm w t bare post = some a ∧ ∀ a', a = a' ↔ MixedArticle S name ind comm bare pos w t post a' := by
  have hr : ∀ r, RemarkText comm r ↔ getRemark comm = r := fun r => (getRemark_iff comm r).symm
  have hes : ∀ p ∈ S.mixes name, AltFit T.mtab (S.alts p.2) p.2 := fun p hp => hf.alts name p.1 p.2 hp
  have hfind : mixFind T name w bare (getRemark comm) = altFind T.mtab w bare (getRemark comm) (S.mixes name) := by
    rw [hf.mixes, mixFind]
    cases mapFind T.mindex name <;> rfl
  rcases altFind_spec hw bare (getRemark comm) (S.mixes name) hes with ⟨a1, a2⟩ | ⟨l, cond, o, m, a1, a2, a3, a4⟩
  · refine ⟨⟨bare, w, t, 0, post, 0⟩, ?_, fun a' => ?_⟩
    · rw [resolveMix, hfind, a1]; rfl
    · simp only [MixedArticle, hr]
      constructor
      · rintro rfl
        exact ⟨_, rfl, Or.inl ⟨rfl, a2⟩⟩
      · rintro ⟨r, rfl, ⟨rfl, _⟩ | ⟨l, cond, o, m, x, stem, e1, _, e3, _⟩⟩
        · rfl
        · exact absurd e3 (a2 (cond, o) (by rw [e1]; simp))
  · have hfit := hes (cond, o) (by rw [a1]; simp)
    obtain ⟨x, hd, r, hx, huniq, hl, hdef⟩ := defaultStr_fit hfit
    have hsuf : x <:+ bare := by
      obtain ⟨y, hy, hy'⟩ := a3.1
      rw [← huniq y hy]; exact hy'
    obtain ⟨stem, rfl⟩ := hsuf
    refine ⟨⟨stem, w + 2048 * kindOf pos ind, t, o, post, 0⟩, ?_, fun a' => ?_⟩
    · rw [resolveMix, hfind, a4]
      simp only [Option.bind_eq_bind, Option.bind_some]
      rw [if_neg hfit.ref, hdef]
      simp only [Option.bind_some, getbyte]
      rw [Nat.and_comm, hl, cutBack_suffix, mixIndex_eq hw h1, add_kind hlt _ (kindOf_le _ _)]
      rfl
    · simp only [MixedArticle, hr]
      constructor
      · rintro rfl
        exact ⟨_, rfl, Or.inr ⟨l, cond, o, m, x, stem, a1, a2, a3, hx, rfl, rfl⟩⟩
      · rintro ⟨r', rfl, ⟨rfl, h⟩ | ⟨l', cond', o', m', x', stem', e1, e2, e3, e4, e5, rfl⟩⟩
        · exact absurd a3 (h (cond, o) (by rw [a1]; simp))
        · rw [a1] at e1
          have hsame : (cond, o) = (cond', o') := by
            rcases List.append_eq_append_iff.1 e1 with ⟨k, k1, k2⟩ | ⟨k, k1, k2⟩
            · cases k with
              | nil => simp only [List.nil_append, List.cons.injEq] at k2; exact k2.1
              | cons y k =>
                simp only [List.cons_append, List.cons.injEq] at k2
                exact absurd a3 (e2 (cond, o) (by rw [k1, k2.1]; simp))
            · cases k with
              | nil => simp only [List.nil_append, List.cons.injEq] at k2; exact k2.1.symm
              | cons y k =>
                simp only [List.cons_append, List.cons.injEq] at k2
                exact absurd e3 (a2 (cond', o') (by rw [k1, k2.1]; simp))
          cases hsame
          rw [huniq x' e4] at e5
          rw [List.append_cancel_right e5]

/-! ### The article -/

/-- The suffix is not longer than the headword. -/
def SuffixFits (norm comm : List Byte) : Prop := ∀ post, PostText comm post → post.length ≤ (plainWord norm).length

theorem ArticleIs_suffix {S : RusSource} {norm dies type ind comm : List Byte} {a : RusArticle} (h : ArticleIs S norm dies type ind comm a) :
    SuffixFits norm comm := by
  obtain ⟨_, _, post, base, cut, _, h1, h2, h3, _⟩ := h
  intro post' h'
  have e1 := (getPostfix_iff comm post).2 h1
  have e2 := (getPostfix_iff comm post').2 h'
  rw [← e2, e1, h2, List.length_append]
  omega

theorem resolve_iff {T : RusTabs} {S : RusSource} (hf : RusFit T S) {norm dies type ind comm : List Byte} (hd : Solid dies) (hsf : SuffixFits norm comm) :
    ∃ r, resolveClassInfo T norm dies type ind comm = some r ∧ ∀ a, r = some a ↔ ArticleIs S norm dies type ind comm a := by
  have h0 : ru "0" = [48] := by decide +kernel
  simp only [resolveClassInfo]
  by_cases hk : ∃ pos plural, TypeIs dies type pos plural
  · obtain ⟨pos, plural, hty⟩ := hk
    have hw0 : typeOf (dies ++ 32 :: type) = typeBits pos plural :=
      (typeOf_iff dies type hd _ (by rw [typeBits]; have := (TypeIs_pos hty).1; omega)).2 ⟨pos, plural, hty, rfl⟩
    obtain ⟨hp1, hp63, hpv⟩ := TypeIs_pos hty
    have hne : typeBits pos plural ≠ 0 := by rw [typeBits]; omega
    have hand : typeBits pos plural &&& 0x3f = pos := typeBits_and hp63
    rw [hw0, if_neg hne, hand]
    have hpost : ∀ post, PostText comm post ↔ getPostfix comm = post := fun post => (getPostfix_iff comm post).symm
    have htu : ∀ pos' plural', TypeIs dies type pos' plural' → pos' = pos ∧ plural' = plural := fun pos' plural' h => TypeIs_unique h hty
    obtain ⟨base, cut, hbase, hcut⟩ : ∃ base cut, plainWord norm = base ++ cut ∧ cut.length = (getPostfix comm).length := by
      have hle := hsf _ ((hpost _).2 rfl)
      exact ⟨(plainWord norm).take ((plainWord norm).length - (getPostfix comm).length), (plainWord norm).drop ((plainWord norm).length - (getPostfix comm).length),
        (List.take_append_drop _ _).symm, by rw [List.length_drop]; omega⟩
    have hcb : cutBack (cleanNorm norm) (getPostfix comm).length = some base := (cutBack_iff _ _ _).2 ⟨cut, hbase, hcut⟩
    have hbu : ∀ base' cut', plainWord norm = base' ++ cut' → cut'.length = (getPostfix comm).length → base' = base := by
      intro base' cut' e1 e2
      rw [hbase] at e1
      exact (List.append_inj' e1 (by rw [hcut, e2])).1.symm
    have hor := typeBits_or (plural := plural) hp63 comm
    obtain ⟨wb1, wb2, wb3⟩ := word_bits (plural := plural) hp63 comm rfl
    -- the article in the terms above
    have art : ∀ a, ArticleIs S norm dies type ind comm a ↔
        ((∃ u, (48 ≤ pos ∨ S.endings (tableName type ind) = none ∧ ind = ru "0") ∧ (if pos = 51 then ScaleText ind u else u = 0) ∧
            a = ⟨base, typeBits pos plural + usageBits comm, u, 0, getPostfix comm, 0⟩) ∨
          ∃ t bare, pos < 48 ∧ S.endings (tableName type ind) = some t ∧ Bare S.ftab t pos plural ind base bare ∧
            MixedArticle S (tableName type ind) ind comm bare pos (typeBits pos plural + usageBits comm) t (getPostfix comm) a) := by
      intro a
      constructor
      · rintro ⟨pos', plural', post', base', cut', t1, t2, t3, t4, t5⟩
        obtain ⟨rfl, rfl⟩ := htu _ _ t1
        obtain rfl := (hpost _).1 t2
        obtain rfl := hbu _ _ t3 t4
        exact t5
      · intro h
        exact ⟨pos, plural, getPostfix comm, base, cut, hty, (hpost _).2 rfl, hbase, hcut, h⟩
    have hend : mapFind T.findex (type ++ 32 :: ind) = S.endings (tableName type ind) := (hf.endings _).symm
    rw [hend]
    by_cases h48 : pos < 48
    · rw [if_pos h48]
      cases ht : S.endings (tableName type ind) with
      | none =>
        simp only [Option.getD_none, Nat.zero_mod, true_and]
        by_cases hz : ind = [48]
        · rw [if_neg (fun h => h.2 hz)]
          refine ⟨some ⟨base, typeBits pos plural + usageBits comm, 0, 0, getPostfix comm, 0⟩, ?_, fun a => ?_⟩
          · simp only [hcb, Option.bind_eq_bind, Option.bind_some, if_true]
            rw [hor, wb1, if_neg (by omega)]; rfl
          · rw [art, ht, Option.some.injEq]
            constructor
            · rintro rfl
              exact Or.inl ⟨0, Or.inr ⟨rfl, by rw [h0]; exact hz⟩, by rw [if_neg (by omega)], rfl⟩
            · rintro (⟨u, _, hu, rfl⟩ | ⟨t, bare, _, h, _⟩)
              · rw [if_neg (by omega)] at hu; rw [hu]
              · simp at h
        · rw [if_pos ⟨h48, hz⟩]
          refine ⟨none, rfl, fun a => ?_⟩
          rw [art, ht, h0]
          constructor
          · intro h; simp at h
          · rintro (⟨u, h | h, _⟩ | ⟨t, bare, _, h, _⟩)
            · omega
            · exact absurd h.2 hz
            · simp at h
      | some t =>
        obtain ⟨r1, r2⟩ := hf.refs _ _ ht
        simp only [Option.getD_some, Nat.mod_eq_of_lt r2]
        rw [if_neg (by omega)]
        simp only [hcb, Option.bind_eq_bind, Option.bind_some]
        rw [if_neg (by omega), hor]
        have hshape := hf.shapes dies type ind pos plural base t hty h48 ht
        rw [← hf.ftab] at hshape
        obtain ⟨r, hr1, hr2⟩ := stripNormal_iff (T := T) (by rw [hf.ftab]; exact hf.bytes) wb1 wb3 h48 (fun hv => hpv hv.2) hshape
          (fun hv => hf.colons dies type ind pos plural t hty hv ht)
        rw [hr1]
        simp only [Option.bind_some]
        rw [hf.ftab] at hr2
        cases r with
        | none =>
          refine ⟨none, rfl, fun a => ?_⟩
          rw [art, ht]
          constructor
          · intro h; simp at h
          · rintro (⟨u, h | h, _⟩ | ⟨t', bare, _, h, hb, _⟩)
            · omega
            · simp at h
            · cases h
              exact absurd ((hr2 bare).2 hb) (by simp)
        | some bare =>
          obtain ⟨a0, ha1, ha2⟩ := resolveMix_iff hf wb1 hp1 wb2 (tableName type ind) ind comm t bare (getPostfix comm)
          refine ⟨some a0, ?_, fun a => ?_⟩
          · rw [show type ++ 32 :: ind = tableName type ind from rfl]
            simp only [ha1]; rfl
          · rw [art, ht, Option.some.injEq, ha2]
            constructor
            · intro h
              exact Or.inr ⟨t, bare, h48, rfl, (hr2 bare).1 rfl, h⟩
            · rintro (⟨u, h | h, _⟩ | ⟨t', bare', _, h, hb, h'⟩)
              · omega
              · simp at h
              · cases h
                have := (hr2 bare').2 hb
                rw [Option.some.injEq] at this
                rw [this]; exact h'
    · rw [if_neg h48, if_neg (fun h => h48 h.1)]
      simp only [hcb, Option.bind_eq_bind, Option.bind_some, if_true]
      rw [hor, wb1]
      refine ⟨_, rfl, fun a => ?_⟩
      rw [art, Option.some.injEq]
      constructor
      · rintro rfl
        refine Or.inl ⟨_, Or.inl (by omega), ?_, rfl⟩
        by_cases h51 : pos = 51
        · rw [if_pos h51, if_pos h51, ← caseScale_iff]
        · rw [if_neg h51, if_neg h51]
      · rintro (⟨u, _, hu, rfl⟩ | ⟨_, _, h, _⟩)
        · by_cases h51 : pos = 51
          · rw [if_pos h51] at hu ⊢
            rw [(caseScale_iff _ _).2 hu]
          · rw [if_neg h51] at hu ⊢
            rw [hu]
        · exact absurd h h48
  · rw [if_pos ((typeOf_zero dies type hd).2 hk)]
    refine ⟨none, rfl, fun a => ?_⟩
    constructor
    · intro h; simp at h
    · rintro ⟨pos, plural, _, _, _, h, _⟩
      exact absurd ⟨pos, plural, h⟩ hk

/-- A suffix longer than the word: no article; the program fails or does not recognize the text. -/
theorem resolve_long {T : RusTabs} {norm dies type ind comm : List Byte} (hsf : ¬ SuffixFits norm comm) :
    resolveClassInfo T norm dies type ind comm = none ∨ resolveClassInfo T norm dies type ind comm = some none := by
  have hcb : cutBack (cleanNorm norm) (getPostfix comm).length = none := by
    rw [cutBack, if_neg]
    intro hle
    apply hsf
    intro post hp
    rw [← (getPostfix_iff comm post).2 hp]
    exact hle
  simp only [resolveClassInfo, hcb]
  by_cases h1 : typeOf (dies ++ 32 :: type) = 0
  · rw [if_pos h1]; exact Or.inr rfl
  · rw [if_neg h1]
    generalize (if typeOf (dies ++ 32 :: type) &&& 63 < 48 then (mapFind T.findex (type ++ 32 :: ind)).getD 0 % 65536 else 0) = t
    by_cases h2 : typeOf (dies ++ 32 :: type) &&& 63 < 48 ∧ t = 0 ∧ ind ≠ [48]
    · rw [if_pos h2]; exact Or.inr rfl
    · rw [if_neg h2]; exact Or.inl rfl

end Libmorph

import Verif.Lemmas.TabGram
/-
The sources of tables: lines.
-/
namespace Libmorph
open Spec

theorem splitOn_ne (sep : Byte) (s : List Byte) : splitOn sep s ≠ [] := by
  cases s with
  | nil => simp [splitOn]
  | cons c s =>
    rw [splitOn]
    split
    · simp
    · split <;> simp

theorem splitOn_none (sep : Byte) : ∀ s : List Byte, sep ∉ s → splitOn sep s = [s]
  | [], _ => rfl
  | c :: s, h => by
    simp only [List.mem_cons, not_or] at h
    rw [splitOn, if_neg (Ne.symm h.1), splitOn_none sep s h.2]

theorem splitOn_some (sep : Byte) (s : List Byte) : ∀ t : List Byte, sep ∉ t → splitOn sep (t ++ sep :: s) = t :: splitOn sep s
  | [], _ => by simp [splitOn]
  | c :: t, h => by
    simp only [List.mem_cons, not_or] at h
    rw [List.cons_append, splitOn, if_neg (Ne.symm h.1), splitOn_some sep s t h.2]

theorem mapInfo_nil (g : GramInfo) : mapInfo [] g = some g := rfl

theorem mapInfo_one {s : List Byte} (h : 124 ∉ s) (hne : s ≠ []) (g : GramInfo) : mapInfo s g = (mapFind gramMapper s).map fun d => d.apply g := by
  rw [mapInfo, splitOn_none _ _ h]
  simp [hne]

theorem mapInfo_more {t : List Byte} (h : 124 ∉ t) (s : List Byte) (g : GramInfo) :
    mapInfo (t ++ 124 :: s) g = (mapFind gramMapper t).bind fun d => mapInfo s (d.apply g) := by
  have hne := splitOn_ne 124 s
  rw [mapInfo, splitOn_some _ _ _ h]
  have e : (t :: splitOn 124 s).getLast? = (splitOn 124 s).getLast? := by
    cases hs : splitOn 124 s with
    | nil => exact (hne hs).elim
    | cons a b => rw [List.getLast?_cons_cons]
  have e2 : (if (t :: splitOn 124 s).getLast? = some [] then (t :: splitOn 124 s).dropLast else t :: splitOn 124 s) =
      t :: (if (splitOn 124 s).getLast? = some [] then (splitOn 124 s).dropLast else splitOn 124 s) := by
    rw [e]
    split
    · rw [List.dropLast_cons_of_ne_nil hne]
    · rfl
  simp only [e2]
  rw [List.foldlM_cons]
  simp only [bind, Option.bind_map]
  rfl

def GramDesc.info (g : GramDesc) : GramInfo := ⟨g.word, g.bits⟩

theorem words_nobar : ∀ p ∈ gramWords, 124 ∉ ru p.1 ∧ ru p.1 ≠ [] := by
  have h : ∀ s ∈ gramWords.map (fun p => ru p.1), 124 ∉ s ∧ s ≠ [] := by decide +kernel
  intro p hp
  exact h _ (List.mem_map.2 ⟨p, hp, rfl⟩)

theorem token_iff (t : List Byte) (g : GramDesc) (e : GramInfo) : (mapFind gramMapper t).map (fun d => d.apply (GramDesc.info g)) = some e ↔
    ∃ p ∈ gramWords, t = ru p.1 ∧ e = GramDesc.info (p.2 g) := by
  constructor
  · intro h
    rw [Option.map_eq_some_iff] at h
    obtain ⟨d, h1, rfl⟩ := h
    obtain ⟨p, hp, rfl⟩ := token_known t d h1
    obtain ⟨d', h2, h3⟩ := token_ok p hp
    rw [h1] at h2
    cases h2
    exact ⟨p, hp, rfl, h3 g⟩
  · rintro ⟨p, hp, rfl, rfl⟩
    obtain ⟨d, h1, h2⟩ := token_ok p hp
    rw [h1]
    exact congrArg some (h2 g)

theorem bar_split (s : List Byte) : 124 ∉ s ∨ ∃ t s', s = t ++ 124 :: s' ∧ 124 ∉ t := by
  by_cases h : 124 ∈ s
  · right
    obtain ⟨a, b, h1, h2⟩ := List.append_of_mem h |> fun _ => (List.mem_iff_append.1 h |> fun _ => List.eq_append_cons_of_mem h)
    exact ⟨a, b, h1, h2⟩
  · exact Or.inl h

theorem gram_iff : ∀ (n : Nat) (s : List Byte), s.length ≤ n → ∀ (g : GramDesc) (e : GramInfo), mapInfo s (GramDesc.info g) = some e ↔
    ∃ g', GramText s g g' ∧ e = GramDesc.info g'
  | n, s, hn, g, e => by
    constructor
    · intro h
      rcases bar_split s with hb | ⟨t, s', rfl, hb⟩
      · by_cases h0 : s = []
        · subst h0
          rw [mapInfo_nil] at h
          cases h
          exact ⟨g, .nil, rfl⟩
        · rw [mapInfo_one hb h0, token_iff] at h
          obtain ⟨p, hp, rfl, rfl⟩ := h
          exact ⟨_, .last hp, rfl⟩
      · rw [mapInfo_more hb] at h
        simp only [List.length_append, List.length_cons] at hn
        rw [Option.bind_eq_some_iff] at h
        obtain ⟨d, h1, h2⟩ := h
        obtain ⟨p, hp, rfl, h3⟩ := (token_iff t g _).1 (by rw [h1]; rfl)
        simp only at h3
        rw [h3] at h2
        cases n with
        | zero => omega
        | succ n =>
          obtain ⟨g', h4, rfl⟩ := (gram_iff n s' (by omega) _ _).1 h2
          exact ⟨g', .more hp h4, rfl⟩
    · rintro ⟨g', h, rfl⟩
      cases h with
      | nil => exact mapInfo_nil _
      | @last _ w f hp =>
        obtain ⟨h1, h2⟩ := words_nobar _ hp
        rw [mapInfo_one h1 h2, token_iff]
        exact ⟨_, hp, rfl, rfl⟩
      | @more _ _ w f s hp hs =>
        obtain ⟨h1, _⟩ := words_nobar _ hp
        simp only [List.length_append, List.length_cons] at hn
        obtain ⟨d, h3, h4⟩ := token_ok _ hp
        rw [mapInfo_more h1, h3, Option.bind_some]
        have := h4 g
        rw [GramDesc.info, this]
        cases n with
        | zero => omega
        | succ n => exact (gram_iff n s (by omega) _ _).2 ⟨g', hs, rfl⟩

theorem mapInfo_iff (s : List Byte) (g : GramDesc) (e : GramInfo) : mapInfo s (GramDesc.info g) = some e ↔ ∃ g', GramText s g g' ∧ e = GramDesc.info g' :=
  gram_iff s.length s (Nat.le_refl _) g e

/-! ### Fields -/

theorem field_split {s x y : List Byte} :
    (s.takeWhile (fun c => c ≠ 44 && !isBlank c) = x ∧ s.dropWhile (fun c => c ≠ 44 && !isBlank c) = y) ↔
      s = x ++ y ∧ (Solid x ∧ 44 ∉ x) ∧ ∀ c, y.head? = some c → c = 44 ∨ Blank c := by
  rw [split_while]
  have e1 : (∀ c ∈ x, (decide (c ≠ 44) && !isBlank c) = true) ↔ Solid x ∧ 44 ∉ x := by
    simp only [Bool.and_eq_true, decide_eq_true_eq, Bool.not_eq_true', isBlank_false, Solid]
    constructor
    · intro h; exact ⟨fun c hc => (h c hc).2, fun hc => (h 44 hc).1 rfl⟩
    · rintro ⟨h1, h2⟩ c hc; exact ⟨by rintro rfl; exact h2 hc, h1 c hc⟩
  have e2 : (∀ c, y.head? = some c → (decide (c ≠ 44) && !isBlank c) = false) ↔ ∀ c, y.head? = some c → c = 44 ∨ Blank c := by
    simp only [Bool.and_eq_false_iff, decide_eq_false_iff_not, ne_eq, not_not, Bool.not_eq_false', isBlank_iff]
  rw [e1, e2]

theorem takeField_iff (s f rest : List Byte) : takeField s = (f, rest) ↔ FieldOf s f rest := by
  have hd := (blanks_split (s := s.dropWhile fun c => c ≠ 44 && !isBlank c)).1 ⟨rfl, rfl⟩
  constructor
  · intro h
    simp only [takeField, Prod.mk.injEq] at h
    obtain ⟨h1, h2⟩ := h
    obtain ⟨a1, a2, a3⟩ := (field_split (s := s)).1 ⟨h1, rfl⟩
    obtain ⟨b1, b2, b3⟩ := hd
    generalize s.dropWhile (fun c => c ≠ 44 && !isBlank c) = y at *
    generalize hx : y.takeWhile isBlank = x at *
    generalize y.dropWhile isBlank = z at *
    by_cases hz : z.head? = some 44
    · rw [if_pos hz] at h2
      obtain ⟨c1, c2, c3⟩ := (blanks_split (s := z.drop 1)).1 ⟨rfl, h2⟩
      refine ⟨x, [44], (z.drop 1).takeWhile isBlank, ?_, a2.1, a2.2, b2, Or.inl rfl, c2, c3, by simp, by simp⟩
      rw [a1, b1]
      cases z with
      | nil => simp at hz
      | cons c z =>
        simp only [List.head?_cons, Option.some.injEq] at hz
        subst hz
        simp only [List.drop_one, List.tail_cons] at c1
        simp only [List.drop_one, List.tail_cons, List.append_assoc, List.cons_append, List.nil_append]
        rw [← c1]
    · rw [if_neg hz] at h2
      obtain ⟨c1, c2, c3⟩ := (blanks_split (s := z)).1 ⟨rfl, h2⟩
      have e : z.takeWhile isBlank = [] := by
        cases z with
        | nil => rfl
        | cons c z =>
          have := b3 c rfl
          rw [List.takeWhile_cons_of_neg (by rw [isBlank_iff]; exact this)]
      rw [e, List.nil_append] at c1
      subst c1
      refine ⟨x, [], [], ?_, a2.1, a2.2, b2, Or.inr rfl, by simp [Blanks], b3, fun _ => hz, ?_⟩
      · rw [a1, b1]; simp
      · rintro - rfl -
        cases z with
        | nil => rfl
        | cons c z =>
          rw [List.nil_append] at b1
          subst b1
          rcases a3 c rfl with rfl | h
          · exact (hz rfl).elim
          · exact (b3 c rfl h).elim
  · rintro ⟨b1, comma, b2, rfl, h1, h2, h3, h4, h5, h6, h7, h8⟩
    have e := (field_split (s := f ++ b1 ++ comma ++ b2 ++ rest) (x := f) (y := b1 ++ comma ++ b2 ++ rest)).2 ⟨by simp, ⟨h1, h2⟩, by
      intro c hc
      cases b1 with
      | cons d b1 =>
        simp only [List.cons_append, List.head?_cons, Option.some.injEq] at hc
        subst hc; exact Or.inr (h3 _ (by simp))
      | nil =>
        rcases h4 with rfl | rfl
        · simp at hc; exact Or.inl hc.symm
        · cases b2 with
          | cons d b2 =>
            simp only [List.nil_append, List.cons_append, List.head?_cons, Option.some.injEq] at hc
            subst hc; exact Or.inr (h5 _ (by simp))
          | nil => rw [h8 rfl rfl rfl] at hc; simp at hc⟩
    simp only [takeField]
    rw [e.1, e.2]
    rcases h4 with rfl | rfl
    · have e2 := (blanks_split (s := b1 ++ [44] ++ b2 ++ rest) (x := b1) (y := [44] ++ b2 ++ rest)).2 ⟨by simp, h3, by intro c hc; simp at hc; subst hc; simp [Blank]⟩
      rw [e2.2, if_pos (by simp)]
      have e3 := (blanks_split (s := b2 ++ rest) (x := b2) (y := rest)).2 ⟨rfl, h5, h6⟩
      simp only [List.cons_append, List.nil_append, List.drop_one, List.tail_cons, e3.2]
    · have e2 := (blanks_split (s := b1 ++ [] ++ b2 ++ rest) (x := b1 ++ b2) (y := rest)).2 ⟨by simp, by
        intro c hc
        rcases List.mem_append.1 hc with hc | hc
        · exact h3 c hc
        · exact h5 c hc, h6⟩
      rw [e2.2, if_neg (h7 rfl)]
      have e3 := (blanks_split (s := rest) (x := []) (y := rest)).2 ⟨rfl, by simp [Blanks], h6⟩
      rw [e3.2]

theorem unquote_iff (f s : List Byte) : unquote f = s ↔ Quoted f s := by
  rw [unquote, Quoted]
  split
  · rename_i h; simp [h, eq_comm]
  · rename_i h; simp [h, eq_comm]

theorem or_hi (x m : Nat) (h : x < 16) (hm : m = 0x80 ∨ m = 0x40) : x ||| m = x + m := by
  have key : ∀ y : Fin 16, y.val ||| 0x80 = y.val + 0x80 ∧ y.val ||| 0x40 = y.val + 0x40 := by decide
  rcases hm with rfl | rfl
  · exact (key ⟨x, h⟩).1
  · exact (key ⟨x, h⟩).2

theorem takeField_eq {s f r : List Byte} (h : FieldOf s f r) : takeField s = (f, r) := (takeField_iff _ _ _).2 h

theorem mapLine_iff (s : List Byte) (g : GramDesc) (x : FxItem) : mapLine s (GramDesc.info g) = some x ↔ ItemText s g x := by
  have gram : ∀ f e, (if f = [] then some (GramDesc.info g) else mapInfo f (GramDesc.info g)) = some e ↔ ∃ g', GramText f g g' ∧ e = GramDesc.info g' := by
    intro f e
    rw [← mapInfo_iff]
    split
    · rename_i h; subst h; rw [mapInfo_nil]
    · rfl
  constructor
  · intro h
    obtain ⟨a1, a2, a3⟩ := (blanks_split (s := s)).1 ⟨rfl, rfl⟩
    rcases k1 : takeField (s.dropWhile isBlank) with ⟨f1, r1⟩
    rcases k2 : takeField r1 with ⟨f2, r2⟩
    rcases k3 : takeField r2 with ⟨f3, r3⟩
    rcases k4 : takeField r3 with ⟨f4, r4⟩
    simp only [mapLine, k1, k2, k3, k4, Option.map_eq_some_iff] at h
    obtain ⟨e, h1, h2⟩ := h
    rw [gram] at h1
    obtain ⟨g', h1, rfl⟩ := h1
    refine ⟨_, f1, r1, f2, r2, f3, r3, f4, r4, _, g', a1, a2, a3, (takeField_iff _ _ _).1 k1, (takeField_iff _ _ _).1 k2, (takeField_iff _ _ _).1 k3,
      (takeField_iff _ _ _).1 k4, ?_, h1, ?_, ?_⟩
    · rw [← h2, ← unquote_iff]
      split
      · rfl
      · split <;> rfl
    · rw [← h2]
      split
      · rfl
      · split <;> rfl
    · rw [← h2]
      split
      · rename_i h3
        exact Or.inl ⟨h3, or_hi _ _ (bits_lt g') (Or.inl rfl), rfl⟩
      · rename_i h3
        split
        · rename_i h4
          exact Or.inr (Or.inl ⟨Classical.not_not.1 h3, h4, or_hi _ _ (bits_lt g') (Or.inr rfl), rfl⟩)
        · rename_i h4
          exact Or.inr (Or.inr ⟨Classical.not_not.1 h3, Classical.not_not.1 h4, rfl, rfl⟩)
  · rintro ⟨skip, f1, r1, f2, r2, f3, r3, f4, r4, s', g', rfl, h1, h2, k1, k2, k3, k4, hq, hg, hw, hf⟩
    have e := ((blanks_split (s := skip ++ s') (x := skip) (y := s')).2 ⟨rfl, h1, h2⟩).2
    simp only [mapLine, Option.map_eq_some_iff]
    refine ⟨GramDesc.info g', ?_, ?_⟩
    · rw [gram, e, takeField_eq k1, takeField_eq k2]
      exact ⟨g', hg, rfl⟩
    · rw [e, takeField_eq k1, takeField_eq k2, takeField_eq k3, takeField_eq k4]
      rw [← unquote_iff] at hq
      obtain ⟨tail, gr, flags, next⟩ := x
      simp only at hq hw hf
      simp only
      rcases hf with ⟨a, b, c⟩ | ⟨a, a', b, c⟩ | ⟨a, a', b, c⟩
      · rw [if_pos a, hq, hw, b, c]
        exact congrArg (FxItem.mk _ _ · _) (or_hi _ _ (bits_lt g') (Or.inl rfl))
      · rw [if_neg (by simp [a]), if_pos a', hq, hw, b, c]
        exact congrArg (FxItem.mk _ _ · _) (or_hi _ _ (bits_lt g') (Or.inr rfl))
      · rw [if_neg (by simp [a]), if_neg (by simp [a']), hq, hw, b, c]
        rfl

theorem tfcLines_iff : ∀ (ts : List (List Byte)) (g : GramDesc) (l : List FxItem), tfcLines (GramDesc.info g) ts = some l ↔ BodySays g ts l
  | [], g, l => by
    rw [tfcLines]
    constructor
    · intro h; cases h; exact .nil
    · intro h; cases h; rfl
  | t :: ts, g, l => by
    rw [tfcLines]
    constructor
    · intro h
      split at h
      · rename_i hd
        rw [Option.bind_eq_some_iff] at h
        obtain ⟨e, h1, h2⟩ := h
        obtain ⟨g', h3, rfl⟩ := (mapInfo_iff _ _ _).1 h1
        cases t with
        | nil => simp at hd
        | cons c t =>
          simp only [List.head?_cons, Option.some.injEq] at hd
          subst hd
          exact .desc h3 ((tfcLines_iff ts g' l).1 h2)
      · rename_i hd
        rw [Option.bind_eq_some_iff] at h
        obtain ⟨x, h1, h2⟩ := h
        rw [Option.map_eq_some_iff] at h2
        obtain ⟨l', h2, rfl⟩ := h2
        exact .item hd ((mapLine_iff _ _ _).1 h1) ((tfcLines_iff ts g l').1 h2)
    · intro h
      cases h with
      | @desc _ g' s _ _ h1 h2 =>
        rw [if_pos (by rfl), List.drop_one, List.tail_cons, (mapInfo_iff s g _).2 ⟨g', h1, rfl⟩, Option.bind_some]
        exact (tfcLines_iff ts g' l).2 h2
      | item h0 h1 h2 =>
        rw [if_neg h0, (mapLine_iff _ _ _).2 h1, Option.bind_some, (tfcLines_iff ts g _).2 h2]
        rfl

theorem tfcTable_iff (p : List Byte × List (List Byte)) (q : List Byte × List FxItem) : tfcTable p = some q ↔ q.1 = p.1 ∧ q.2 ≠ [] ∧ BodySays {} p.2 q.2 := by
  have e : (⟨0, 3⟩ : GramInfo) = GramDesc.info {} := by decide +kernel
  rw [tfcTable, e, Option.bind_eq_some_iff]
  constructor
  · rintro ⟨l, h1, h2⟩
    split at h2
    · simp at h2
    · rename_i hne
      cases h2
      exact ⟨rfl, hne, (tfcLines_iff _ _ _).1 h1⟩
  · rintro ⟨h1, h2, h3⟩
    refine ⟨q.2, (tfcLines_iff _ _ _).2 h3, ?_⟩
    rw [if_neg h2, ← h1]

/-! ### Lines of alternation tables -/

theorem takeField_shorter {s : List Byte} (h : s ≠ []) {f r : List Byte} (hf : FieldOf s f r) : r.length < s.length := by
  obtain ⟨b1, comma, b2, rfl, _, _, _, hc, _, _, _, h8⟩ := hf
  simp only [List.length_append]
  rcases hc with rfl | rfl
  · simp; omega
  · simp only [List.length_nil]
    by_cases h0 : b1 = []
    · by_cases h1 : b2 = []
      · have := h8 rfl h0 h1
        subst this h0 h1
        simp only [List.append_nil, ne_eq] at h
        have := List.length_pos_of_ne_nil h
        simpa using this
      · have := List.length_pos_of_ne_nil h1; omega
    · have := List.length_pos_of_ne_nil h0; omega

theorem ichFields_iff : ∀ (fuel : Nat) (s : List Byte), s.length ≤ fuel → ∀ l, ichFields fuel s = l ↔ ∃ fs, Fields s fs ∧ List.Forall₂ Quoted fs l
  | 0, s, hs, l => by
    have : s = [] := List.eq_nil_of_length_eq_zero (by omega)
    subst this
    rw [ichFields]
    constructor
    · rintro rfl; exact ⟨[], .nil, .nil⟩
    · rintro ⟨fs, h1, h2⟩
      cases h1 with
      | nil => cases h2; rfl
      | cons h => exact (h rfl).elim
  | fuel + 1, s, hs, l => by
    rw [ichFields]
    by_cases h0 : s = []
    · subst h0
      rw [if_pos rfl]
      constructor
      · rintro rfl; exact ⟨[], .nil, .nil⟩
      · rintro ⟨fs, h1, h2⟩
        cases h1 with
        | nil => cases h2; rfl
        | cons h => exact (h rfl).elim
    · rw [if_neg h0]
      have hf : FieldOf s (takeField s).1 (takeField s).2 := (takeField_iff s _ _).1 rfl
      have hl := takeField_shorter h0 hf
      constructor
      · rintro rfl
        obtain ⟨fs, h1, h2⟩ := (ichFields_iff fuel (takeField s).2 (by omega) _).1 rfl
        exact ⟨_, .cons h0 hf h1, .cons ((unquote_iff _ _).1 rfl) h2⟩
      · rintro ⟨fs, h1, h2⟩
        cases h1 with
        | nil => exact (h0 rfl).elim
        | cons _ h3 h4 =>
          cases h2 with
          | cons h5 h6 =>
            have e := takeField_eq h3
            rw [e] at hl ⊢
            simp only at hl ⊢
            rw [(unquote_iff _ _).2 h5, (ichFields_iff fuel _ (by omega) _).2 ⟨_, h4, h6⟩]

theorem fields_two {s a : List Byte} {l : List (List Byte)} (h : Fields s (a :: l)) : FieldOf s a (takeField s).2 ∧ (takeField s).1 = a ∧ Fields (takeField s).2 l := by
  cases h with
  | cons h0 h1 h2 =>
    have e := takeField_eq h1
    rw [e]
    exact ⟨h1, rfl, h2⟩

theorem takeField_nil : takeField [] = ([], []) := rfl

theorem ichLine_iff (header s : List Byte) (x : IchLine) : ichLine header s = some x ↔ AltText header s x := by
  simp only [ichLine]
  have hf : ∀ s : List Byte, FieldOf s (takeField s).1 (takeField s).2 := fun s => (takeField_iff s _ _).1 rfl
  constructor
  · intro h
    split at h
    · simp at h
    · rename_i hn
      simp only [not_or] at hn
      cases h
      refine ⟨rfl, hn.1, ?_⟩
      obtain ⟨fs, h1, h2⟩ := (ichFields_iff _ (takeField (takeField (takeField s).2).2).2 (Nat.le_refl _) _).1 rfl
      have ne : ∀ s : List Byte, (takeField s).1 ≠ [] → s ≠ [] := by rintro s h rfl; exact h rfl
      exact ⟨_, _, fs, .cons (ne _ hn.1) (hf _) (.cons (ne _ hn.2.1) (hf _) (.cons (ne _ hn.2.2) (hf _) h1)), hn.2.1, hn.2.2,
        .cons ((unquote_iff _ _).1 rfl) (.cons ((unquote_iff _ _).1 rfl) h2)⟩
  · rintro ⟨h1, h2, one, two, more, h3, h4, h5, h6⟩
    obtain ⟨_, e1, h3⟩ := fields_two h3
    obtain ⟨_, e2, h3⟩ := fields_two h3
    obtain ⟨_, e3, h3⟩ := fields_two h3
    clear * - h1 h2 h4 h5 h6 e1 e2 e3 h3
    obtain ⟨xh, xc, xs⟩ := x
    simp only at h1 h2 e1 h6
    subst h1
    cases h6 with
    | cons q1 h6 =>
      cases h6 with
      | cons q2 h6 =>
        rw [e1, e2, e3, if_neg (by simp [h2, h4, h5]), (unquote_iff _ _).2 q1, (unquote_iff _ _).2 q2,
          (ichFields_iff _ _ (Nat.le_refl _) _).2 ⟨more, h3, h6⟩]

end Libmorph

import Verif.Model.Factory
/-
C32 API factory: known code pages succeed, everything else fails cleanly.
-/
namespace Libmorph

/-- The same character, or a capital Latin letter (65 .. 90) and its small letter. -/
def SameLetter (a b : Byte) : Prop := a = b ∨ (65 ≤ a ∧ a ≤ 90 ∧ b = a + 32) ∨ (65 ≤ b ∧ b ≤ 90 ∧ a = b + 32)

instance (a b : Byte) : Decidable (SameLetter a b) := by unfold SameLetter; infer_instance

/-- Two texts are equal up to the case of Latin letters. -/
def sameName (a b : List Byte) : Prop := a.length = b.length ∧ ∀ p ∈ a.zip b, SameLetter p.1 p.2

instance (a b : List Byte) : Decidable (sameName a b) := by unfold sameName; infer_instance

/-- The names of the code pages. -/
def pageNames : ApiInst → List String
  | .cp1251 => ["windows-1251", "windows", "1251", "win-1251", "win", "windows 1251", "win 1251", "ansi"]
  | .koi8 => ["koi-8", "koi8", "20866"]
  | .cp866 => ["dos", "oem", "866"]
  | .iso => ["28595", "iso-88595", "iso-8859-5"]
  | .mac => ["10007", "mac"]
  | .utf8 => ["65001", "utf-8", "utf8"]
  | .wide => ["utf-16", "utf16"]

/-- `name` is one of the names of `i`, in any letter case. -/
def NameOf (i : ApiInst) (name : List Byte) : Prop := ∃ s ∈ pageNames i, sameName (asciiBytes s) name

/-- A C string: no zero inside, a zero after it, then anything. -/
def cstr (text junk : List Byte) : List Byte := text ++ 0 :: junk

section Aux

theorem asciiLower_zero {c : Byte} : asciiLower c = 0 ↔ c = 0 := by
  unfold asciiLower
  split <;> omega

theorem sameLetter_iff (a b : Byte) : SameLetter a b ↔ asciiLower a = asciiLower b := by
  unfold SameLetter asciiLower
  split <;> split <;> omega

theorem sameName_iff (a b : List Byte) : sameName a b ↔ a.map asciiLower = b.map asciiLower := by
  unfold sameName
  induction a generalizing b with
  | nil => cases b <;> simp
  | cons x a ih =>
    cases b with
    | nil => simp
    | cons y b =>
      have := ih b
      simp only [List.length_cons, Nat.add_right_cancel_iff, List.zip_cons_cons, List.mem_cons, forall_eq_or_imp, List.map_cons, List.cons.injEq,
        ← this, sameLetter_iff]
      exact ⟨fun ⟨p, q, r⟩ => ⟨q, p, r⟩, fun ⟨q, p, r⟩ => ⟨p, q, r⟩⟩

theorem sameName_join {a b c : List Byte} (h1 : sameName a c) (h2 : sameName b c) : sameName a b :=
  (sameName_iff _ _).2 (((sameName_iff _ _).1 h1).trans ((sameName_iff _ _).1 h2).symm)

theorem strcaseEq_cstr {text junk : List Byte} (ht : 0 ∉ text) : ∀ {name : List Byte}, 0 ∉ name →
    strcaseEq name (cstr text junk) = some (decide (sameName name text)) := by
  unfold cstr
  induction text with
  | nil =>
    intro name hn
    cases name with
    | nil => simp [strcaseEq, sameName]
    | cons c cs =>
      have hc : c ≠ 0 := fun h => hn (by simp [h])
      have h2 : asciiLower c ≠ asciiLower 0 := by
        rw [show asciiLower 0 = 0 from rfl, Ne, asciiLower_zero]; exact hc
      simp [strcaseEq, sameName, h2]
  | cons t text ih =>
    intro name hn
    have ht0 : t ≠ 0 := fun h => ht (by simp [h])
    cases name with
    | nil => simp [strcaseEq, sameName, ht0]
    | cons c cs =>
      rw [List.cons_append, strcaseEq, ih (fun h => ht (by simp [h])) (fun h => hn (by simp [h]))]
      by_cases he : asciiLower c = asciiLower t
      · rw [if_pos he]; congr 1; exact decide_eq_decide.2 (by simp [sameName_iff, he])
      · rw [if_neg he]; simp [sameName_iff, he]

theorem nameOf_iff (i : ApiInst) (name : List Byte) : NameOf i name ↔ ∃ s, (i, s) ∈ codepageList ∧ sameName (asciiBytes s) name := by
  have h1 : ∀ i ∈ [ApiInst.cp1251, .koi8, .cp866, .iso, .mac, .utf8, .wide], ∀ s ∈ pageNames i,
      ∃ t, (i, t) ∈ codepageList ∧ (asciiBytes s).map asciiLower = (asciiBytes t).map asciiLower := by
    have : ∀ i ∈ [ApiInst.cp1251, .koi8, .cp866, .iso, .mac, .utf8, .wide], ∀ s ∈ pageNames i,
        ∃ p ∈ codepageList, p.1 = i ∧ (asciiBytes s).map asciiLower = (asciiBytes p.2).map asciiLower := by decide +kernel
    intro i hi s hs
    obtain ⟨⟨_, t⟩, h1, rfl, h2⟩ := this i hi s hs
    exact ⟨t, h1, h2⟩
  have h2 : ∀ p ∈ codepageList, ∃ s ∈ pageNames p.1, (asciiBytes s).map asciiLower = (asciiBytes p.2).map asciiLower := by decide +kernel
  constructor
  · rintro ⟨s, hs, h⟩
    obtain ⟨t, ht, e⟩ := h1 i (by cases i <;> decide) s hs
    exact ⟨t, ht, (sameName_iff _ _).2 (e ▸ (sameName_iff _ _).1 h)⟩
  · rintro ⟨s, hs, h⟩
    obtain ⟨t, ht, e⟩ := h2 _ hs
    exact ⟨t, ht, (sameName_iff _ _).2 (e ▸ (sameName_iff _ _).1 h)⟩

theorem findPage_some {text junk : List Byte} (ht : 0 ∉ text) : ∀ {l : List (ApiInst × String)},
    (∀ p ∈ l, 0 ∉ asciiBytes p.2) →
    findPage (cstr text junk) l = some ((l.find? fun p => decide (sameName (asciiBytes p.2) text)).map (·.1)) := by
  intro l
  induction l with
  | nil => intro _; rfl
  | cons p l ih =>
    intro h
    rw [findPage, strcaseEq_cstr ht (h p (by simp))]
    simp only [Option.bind_eq_bind, Option.bind_some, List.find?_cons]
    by_cases hs : sameName (asciiBytes p.2) text
    · simp [hs]
    · simp only [hs, decide_false, Bool.false_eq_true, if_false]
      exact ih fun q hq => h q (by simp [hq])

theorem names_no_zero : ∀ p ∈ codepageList, 0 ∉ asciiBytes p.2 := by decide +kernel

theorem names_unique : ∀ p ∈ codepageList, ∀ q ∈ codepageList, sameName (asciiBytes p.2) (asciiBytes q.2) → p = q := by
  decide +kernel

theorem memcmp_self_append (a b c : List Byte) : memcmp (a ++ b) (a ++ c) a.length = some .eq := by
  induction a with
  | nil => simp [memcmp]
  | cons x a ih => simp [memcmp, ih]

/-- Comparing a C string with a text of `n` bytes without zeros never leaves the string. -/
theorem memcmp_cstr {junk : List Byte} : ∀ {text m : List Byte}, 0 ∉ m →
    ∃ r, memcmp (cstr text junk) m m.length = some r ∧ (r = .eq ↔ m <+: text) := by
  unfold cstr
  intro text
  induction text with
  | nil =>
    intro m hm
    cases m with
    | nil => exact ⟨.eq, by simp [memcmp], by simp⟩
    | cons x m =>
      have hx : 0 < x := Nat.pos_of_ne_zero fun h => hm (by simp [h])
      exact ⟨.lt, by simp [memcmp, hx], by simp⟩
  | cons t text ih =>
    intro m hm
    cases m with
    | nil => exact ⟨.eq, by simp [memcmp], by simp⟩
    | cons x m =>
      rcases Nat.lt_trichotomy t x with h | h | h
      · exact ⟨.lt, by simp [memcmp, h], by simp only [reduceCtorEq, List.cons_prefix_cons, false_iff]; omega⟩
      · subst h
        obtain ⟨r, h1, h2⟩ := ih (m := m) fun h => hm (by simp [h])
        exact ⟨r, by simp [memcmp, h1], by simp [h2]⟩
      · exact ⟨.gt, by simp [memcmp, h, Nat.lt_asymm h], by simp only [reduceCtorEq, List.cons_prefix_cons, false_iff]; omega⟩

theorem afterMagic_ok {magic : String} (hz : 0 ∉ asciiBytes (magic ++ ":")) (hl : (asciiBytes (magic ++ ":")).length = magicSize)
    (name junk : List Byte) :
    afterMagic magic (some (cstr (asciiBytes (magic ++ ":") ++ name) junk)) = some (some (cstr name junk)) := by
  obtain ⟨r, h1, h2⟩ := memcmp_cstr (text := asciiBytes (magic ++ ":") ++ name) (junk := junk) hz
  have hr : r = .eq := h2.2 (List.prefix_append _ _)
  subst hr
  rw [hl] at h1
  simp only [afterMagic, h1, Option.bind_eq_bind, Option.bind_some]
  simp [cstr, ← hl]

theorem afterMagic_bad {magic : String} (hz : 0 ∉ asciiBytes (magic ++ ":")) (hl : (asciiBytes (magic ++ ":")).length = magicSize)
    {text : List Byte} (h : ¬ asciiBytes (magic ++ ":") <+: text) (junk : List Byte) :
    afterMagic magic (some (cstr text junk)) = some none := by
  obtain ⟨r, h1, h2⟩ := memcmp_cstr (text := text) (junk := junk) hz
  have hr : r ≠ .eq := fun he => h (h2.1 he)
  rw [hl] at h1
  simp only [afterMagic, h1, Option.bind_eq_bind, Option.bind_some, if_pos hr]
  rfl

theorem findPage_named {name junk : List Byte} {i : ApiInst} (hn : 0 ∉ name) (h : NameOf i name) :
    findPage (cstr name junk) codepageList = some (some i) := by
  obtain ⟨s, hs, he⟩ := (nameOf_iff _ _).1 h
  rw [findPage_some hn names_no_zero]
  cases hf : codepageList.find? fun p => decide (sameName (asciiBytes p.2) name) with
  | none =>
    have := List.find?_eq_none.1 hf (i, s) hs
    simp [he] at this
  | some p =>
    have h1 := List.find?_some hf
    have h2 := List.mem_of_find?_eq_some hf
    have h3 : sameName (asciiBytes p.2) (asciiBytes (i, s).2) := sameName_join (of_decide_eq_true h1) he
    rw [names_unique p h2 (i, s) hs h3]
    rfl

theorem findPage_unnamed {name junk : List Byte} (hn : 0 ∉ name) (h : ∀ i, ¬ NameOf i name) :
    findPage (cstr name junk) codepageList = some none := by
  rw [findPage_some hn names_no_zero]
  cases hf : codepageList.find? fun p => decide (sameName (asciiBytes p.2) name) with
  | none => rfl
  | some p =>
    have h1 := List.find?_some hf
    exact absurd ((nameOf_iff _ _).2 ⟨p.2, List.mem_of_find?_eq_some hf, of_decide_eq_true h1⟩) (h p.1)

theorem magic_zero : 0 ∉ asciiBytes (libmorphMagic ++ ":") := by decide +kernel
theorem fuzzy_zero : 0 ∉ asciiBytes (libfuzzyMagic ++ ":") := by decide +kernel
theorem magic_len : (asciiBytes (libmorphMagic ++ ":")).length = magicSize := by decide +kernel
theorem fuzzy_len : (asciiBytes (libfuzzyMagic ++ ":")).length = magicSize := by decide +kernel

end Aux

/-- The API prefixes in use. -/
def IsMagic (m : String) : Prop := m = libmorphMagic ∨ m = libfuzzyMagic

theorem IsMagic.zero {m : String} (h : IsMagic m) : 0 ∉ asciiBytes (m ++ ":") := by
  rcases h with rfl | rfl
  · exact magic_zero
  · exact fuzzy_zero

theorem IsMagic.len {m : String} (h : IsMagic m) : (asciiBytes (m ++ ":")).length = magicSize := by
  rcases h with rfl | rfl
  · exact magic_len
  · exact fuzzy_len

/-- The Russian factories (dictionary and fuzzy): the prefix followed by a documented name, in any letter
case, returns 0 and the object of that code page. -/
theorem C32_known {magic : String} (hm : IsMagic magic) {name junk : List Byte} {i : ApiInst} (h0 : 0 ∉ name) (hn : NameOf i name) :
    rusGetAPI magic (some (cstr (asciiBytes (magic ++ ":") ++ name) junk)) true = some (0, .inst i) := by
  simp only [rusGetAPI, afterMagic_ok hm.zero hm.len, Bool.not_true, Bool.false_eq_true, if_false, Option.bind_eq_bind, Option.bind_some,
    findPage_named h0 hn]
  rfl

/-- A name belongs to at most one object. -/
theorem C32_unambiguous {name : List Byte} {i j : ApiInst} (hi : NameOf i name) (hj : NameOf j name) : i = j := by
  obtain ⟨s, hs, he⟩ := (nameOf_iff _ _).1 hi
  obtain ⟨t, ht, hf⟩ := (nameOf_iff _ _).1 hj
  exact congrArg (·.1) (names_unique (i, s) hs (j, t) ht (sameName_join he hf))

/-- The right prefix with an unknown name: `EINVAL`, and the pointer is nulled. -/
theorem C32_unknown {magic : String} (hm : IsMagic magic) {name junk : List Byte} (h0 : 0 ∉ name) (hn : ∀ i, ¬ NameOf i name) :
    rusGetAPI magic (some (cstr (asciiBytes (magic ++ ":") ++ name) junk)) true = some (EINVAL, .null) := by
  simp only [rusGetAPI, afterMagic_ok hm.zero hm.len, Bool.not_true, Bool.false_eq_true, if_false, Option.bind_eq_bind, Option.bind_some,
    findPage_unnamed h0 hn]
  rfl

/-- Anything else - a null key, a key without the prefix (also a shorter one), a null pointer: `EINVAL`,
nothing is written and no byte after the key is read (`junk` is arbitrary). -/
theorem C32_refused {magic : String} (hm : IsMagic magic) (text junk : List Byte) (ptr : Bool)
    (h : ¬ asciiBytes (magic ++ ":") <+: text) :
    rusGetAPI magic (some (cstr text junk)) ptr = some (EINVAL, .untouched) ∧
    rusGetAPI magic none ptr = some (EINVAL, .untouched) ∧
    engGetAPI magic (some (cstr text junk)) ptr = some (EINVAL, .untouched) ∧
    engGetAPI magic none ptr = some (EINVAL, .untouched) := by
  have h1 := afterMagic_bad hm.zero hm.len h junk
  have h2 : afterMagic magic none = some none := rfl
  cases ptr <;> simp [rusGetAPI, engGetAPI, h1, h2]

/-- A null pointer variable is refused whatever the key. -/
theorem C32_null_target (magic : String) (key : Option (List Byte)) :
    rusGetAPI magic key false = some (EINVAL, .untouched) ∧ engGetAPI magic key false = some (EINVAL, .untouched) := by
  simp [rusGetAPI, engGetAPI]

/-- The English factories with the right prefix: the wide-character object for the two names of UTF-16, the
byte object for every other name - also for an unknown one. -/
theorem C32_english {magic : String} (hm : IsMagic magic) {name junk : List Byte} (h0 : 0 ∉ name) :
    engGetAPI magic (some (cstr (asciiBytes (magic ++ ":") ++ name) junk)) true =
      some (0, .inst (if sameName (asciiBytes "utf-16") name ∨ sameName (asciiBytes "utf16") name then .wide else .cp1251)) := by
  have z1 : 0 ∉ asciiBytes "utf-16" := by decide +kernel
  have z2 : 0 ∉ asciiBytes "utf16" := by decide +kernel
  simp only [engGetAPI, afterMagic_ok hm.zero hm.len, Bool.not_true, Bool.false_eq_true, if_false, Option.bind_eq_bind, Option.bind_some,
    strcaseEq_cstr h0 z1, strcaseEq_cstr h0 z2]
  by_cases h1 : sameName (asciiBytes "utf-16") name
  · simp [h1]
  · by_cases h2 : sameName (asciiBytes "utf16") name
    · simp [h1, h2]
    · simp [h1, h2]

/-- The old-style Russian function: a documented name of a byte code page gives that object, a name of the
wide-character one is refused without writing, any other non-empty name is refused with the pointer nulled. -/
theorem C32_load_codepage {name junk : List Byte} (h0 : 0 ∉ name) (hne : name ≠ []) :
    (∀ i, NameOf i name → rusLoadCp true (some (cstr name junk)) =
      some (if i = .wide then (EINVAL, .untouched) else (0, .inst i))) ∧
    ((∀ i, ¬ NameOf i name) → rusLoadCp true (some (cstr name junk)) = some (EINVAL, .null)) := by
  obtain ⟨c, cs, rfl⟩ := List.exists_cons_of_ne_nil hne
  have hc : c ≠ 0 := fun h => h0 (by simp [h])
  constructor
  · intro i hi
    have hf := findPage_named (junk := junk) h0 hi
    rw [cstr, List.cons_append] at hf
    cases i <;> simp [rusLoadCp, cstr, hc, hf]
  · intro hi
    have hf := findPage_unnamed (junk := junk) h0 hi
    rw [cstr, List.cons_append] at hf
    simp [rusLoadCp, cstr, hc, hf]

/-- The old-style functions refuse a null pointer variable, a null name and an empty name without writing. -/
theorem C32_load_refused (ptr : Bool) (codepage : Option (List Byte))
    (h : ptr = false ∨ codepage = none ∨ ∃ junk, codepage = some (cstr [] junk)) :
    rusLoadCp ptr codepage = some (EINVAL, .untouched) ∧ fuzzyRusLoadCp ptr codepage = some (EINVAL, .untouched) := by
  rcases h with rfl | rfl | ⟨junk, rfl⟩
  · cases codepage <;> simp [rusLoadCp, fuzzyRusLoadCp]
  · simp [rusLoadCp, fuzzyRusLoadCp]
  · cases ptr <;> simp [rusLoadCp, fuzzyRusLoadCp, cstr]

/-- The old-style function of the fuzzy analyser: every documented name gives its object, any other non-empty name is refused with the
pointer nulled. -/
theorem C32_fuzzy_load {name junk : List Byte} (h0 : 0 ∉ name) (hne : name ≠ []) :
    (∀ i, NameOf i name → fuzzyRusLoadCp true (some (cstr name junk)) = some (0, .inst i)) ∧
    ((∀ i, ¬ NameOf i name) → fuzzyRusLoadCp true (some (cstr name junk)) = some (EINVAL, .null)) := by
  obtain ⟨c, cs, rfl⟩ := List.exists_cons_of_ne_nil hne
  have hc : c ≠ 0 := fun h => h0 (by simp [h])
  constructor
  · intro i hi
    have hf := findPage_named (junk := junk) h0 hi
    rw [cstr, List.cons_append] at hf
    simp [fuzzyRusLoadCp, cstr, hc, hf]
  · intro hi
    have hf := findPage_unnamed (junk := junk) h0 hi
    rw [cstr, List.cons_append] at hf
    simp [fuzzyRusLoadCp, cstr, hc, hf]

/-- The old-style function of the fuzzy analyser lacks that check: asked for UTF-16 it returns success and
hands the wide-character object out as a byte object. -/
theorem C32_counterexample : fuzzyRusLoadCp true (some (cstr (asciiBytes "UTF-16") [])) = some (0, .inst .wide) := by
  decide +kernel

/-- Concrete cases: a name in other letters, an unknown name, a key that is too short, a wrong prefix. -/
example : NameOf .utf8 (asciiBytes "UTF-8") ∧ (∀ i, ¬ NameOf i (asciiBytes "latin1")) ∧
    ¬ asciiBytes (libmorphMagic ++ ":") <+: asciiBytes "libmorph" ∧
    rusGetAPI libmorphMagic (some (cstr (asciiBytes "libmorph.api.v4:KOI8") [1, 2])) true = some (0, .inst .koi8) := by
  refine ⟨⟨"utf-8", by decide +kernel, by decide +kernel⟩, ?_, by decide +kernel, by decide +kernel⟩
  intro i h
  obtain ⟨s, hs, h⟩ := (nameOf_iff _ _).1 h
  have : ∀ p ∈ codepageList, ¬ sameName (asciiBytes p.2) (asciiBytes "latin1") := by decide +kernel
  exact this _ hs h

end Libmorph

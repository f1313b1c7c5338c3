import Verif.Lemmas.ClassLoad
import Verif.Lemmas.Utf8
import Verif.Props.C75
/-
C88: the text make-classes prints is what compile-dict reads.
-/
namespace Libmorph
open Json

variable {conv back : List Byte → List Byte}

theorem classesText_eq (m : ClassMap) (hne : m ≠ []) (hl : m.length < 2 ^ 32) : classesText conv m =
    123 :: (10 :: 32 :: 32 :: (34 :: asciiBytes "created" ++ [34, 58] ++ 32 :: decimal m.length)) ++
      44 :: (10 :: 32 :: 32 :: (34 :: asciiBytes "classes" ++ [34, 58] ++ 32 :: (91 :: commas (classBodies conv 0 m) ++ 44 :: [10, 32, 32] ++ [93]))) ++
      [10] ++ [125] ++ [10] := by
  have l1 : asciiBytes "{\n  \"created\": " = [123, 10, 32, 32, 34, 99, 114, 101, 97, 116, 101, 100, 34, 58, 32] := by decide
  have l2 : asciiBytes ",\n  \"classes\": [\n" = [44, 10, 32, 32, 34, 99, 108, 97, 115, 115, 101, 115, 34, 58, 32, 91, 10] := by decide
  have l3 : asciiBytes "  ]\n}\n" = [32, 32, 93, 10, 125, 10] := by decide
  have k1 : asciiBytes "created" = [99, 114, 101, 97, 116, 101, 100] := by decide
  have k2 : asciiBytes "classes" = [99, 108, 97, 115, 115, 101, 115] := by decide
  have hm : m.length % 2 ^ 32 = m.length := Nat.mod_eq_of_lt hl
  have hc := classTexts_commas (conv := conv) 0 m hne
  rw [classesText, l1, l2, l3, k1, k2, hm]
  simp only [List.append_assoc, List.cons_append, List.nil_append]
  have : ∀ (a b : List Byte), 10 :: (classTexts conv 0 m ++ a) = commas (classBodies conv 0 m) ++ 44 :: 10 :: a := by
    intro a _
    rw [← List.cons_append, hc]
    simp
  rw [this _ []]

/-- **C88** A reader of JSON that takes a comma before a closing bracket reads from the printed text the classes. -/
theorem C88_text (hc : conv [] = []) (m : ClassMap) (hne : m ≠ []) (hl : m.length < 2 ^ 31) (hp : ∀ c ∈ m, ClassPlain conv c) (hf : ∀ c ∈ m, ClassFits c) :
    readLax (classesText conv m) = some (classesJson conv m) := by
  have hb := forall₂_bodies (lax := Bool.true) hc m 0 (by omega) hp hf
  have hb0 : classBodies conv 0 m ≠ [] := by simpa [classBodies] using hne
  have harr : Reads Bool.true (91 :: commas (classBodies conv 0 m) ++ 44 :: [10, 32, 32] ++ [93]) (.arr (m.mapIdx (classJson conv))) := by
    intro f r hf hr
    rw [value_comma hb hb0 (by decide) f r hf]
    simp
  have m1 := (reads_key (k := asciiBytes "created") (by unfold Plain; decide) (reads_decimal (lax := Bool.true) m.length)).ws (w := [10, 32, 32]) (by decide)
  have m2 := (reads_key (k := asciiBytes "classes") (by unfold Plain; decide) harr).ws (w := [10, 32, 32]) (by decide)
  have hobj := reads_obj (w := [10]) (.cons m1 (.cons m2 .nil)) (by decide)
  rw [classesText_eq m hne (by omega), readLax, readWith]
  have := hobj ((classesText conv m).length + 2) [10] (by rw [classesText_eq m hne (by omega)]; simp [commas] <;> omega) (ends_of (by simp; decide) _)
  rw [classesText_eq m hne (by omega)] at this
  simp only [commas] at this
  have e : classesJson conv m = .obj [(asciiBytes "created", .int m.length), (asciiBytes "classes", .arr (m.mapIdx (classJson conv)))] := rfl
  rw [e]
  simp only [List.append_assoc, List.cons_append, List.nil_append] at this ⊢
  rw [this]
  rfl

/-- **C88** But it is no JSON text: behind the last class there is a comma. -/
theorem C88_no_json (hc : conv [] = []) (m : ClassMap) (hne : m ≠ []) (hl : m.length < 2 ^ 31) (hp : ∀ c ∈ m, ClassPlain conv c) (hf : ∀ c ∈ m, ClassFits c) :
    Json.read (classesText conv m) = none := by
  have hb := forall₂_bodies (lax := Bool.false) hc m 0 (by omega) hp hf
  have hb0 : classBodies conv 0 m ≠ [] := by simpa [classBodies] using hne
  have m1 := (reads_key (k := asciiBytes "created") (by unfold Plain; decide) (reads_decimal (lax := Bool.false) m.length)).ws (w := [10, 32, 32]) (by decide)
  generalize hn : (classesText conv m).length = n
  have hlen : (commas (classBodies conv 0 m)).length + (decimal m.length).length + 36 ≤ n := by
    rw [← hn, classesText_eq m hne (by omega)]
    have k1 : (asciiBytes "created").length = 7 := by decide
    have k2 : (asciiBytes "classes").length = 7 := by decide
    simp [k1, k2] <;> omega
  have key : value Bool.false (n + 2) (classesText conv m) = none := by
    rw [classesText_eq m hne (by omega)]
    generalize hA : commas (classBodies conv 0 m) = A at *
    obtain ⟨n, rfl⟩ : ∃ k, n = k + 3 := ⟨n - 3, by omega⟩
    rw [List.append_assoc, List.append_assoc, List.append_assoc, List.cons_append, value, skipWs_cons (by decide)]
    simp only
    rw [if_neg (by decide), if_pos trivial]
    have hne' : ¬ (skipWs (10 :: 32 :: 32 :: (34 :: asciiBytes "created" ++ [34, 58] ++ 32 :: decimal m.length) ++ (44 ::
        (10 :: 32 :: 32 :: (34 :: asciiBytes "classes" ++ [34, 58] ++ 32 :: (91 :: A ++ 44 :: [10, 32, 32] ++ [93]))) ++ ([10] ++ ([125] ++ [10]))))).head? = some 125 := by
      simp [skipWs, isWs]
    rw [if_neg hne', members]
    have h1 := m1 (n + 3) (44 :: (10 :: 32 :: 32 :: (34 :: asciiBytes "classes" ++ [34, 58] ++ 32 :: (91 :: A ++ 44 :: [10, 32, 32] ++ [93]))) ++ ([10] ++ ([125] ++ [10])))
      (by
        have k1 : (asciiBytes "created").length = 7 := by decide
        simp [k1]; omega) (ends_of (by simp) _)
    simp only [List.cons_append, List.nil_append, List.append_assoc] at h1 ⊢
    rw [h1]
    simp only [skipWs_cons (b := 44) (by decide), if_true]
    rw [members, member]
    have hs : ∀ x, skipWs (10 :: 32 :: 32 :: 34 :: x) = 34 :: x := by intro x; simp [skipWs, isWs]
    rw [hs]
    simp only [if_true]
    have hk := str_plain (t := asciiBytes "classes") (by unfold Plain; decide)
    rw [hk]
    simp only [skipWs_cons (b := 58) (by decide), if_true]
    have hv := value_comma hb hb0 (w := [10, 32, 32]) (by decide) (n + 1) ([10] ++ ([125] ++ [10])) (by rw [hA]; simp; omega)
    rw [hA] at hv
    have hv' : value Bool.false (n + 1) (32 :: (91 :: A ++ 44 :: [10, 32, 32] ++ [93] ++ ([10] ++ ([125] ++ [10])))) = none := by
      rw [value] at hv ⊢
      have : ∀ x, skipWs (32 :: x) = skipWs x := by intro x; simp [skipWs, isWs]
      rw [this]
      exact hv
    simp only [List.cons_append, List.nil_append, List.append_assoc] at hv'
    rw [hv']
    rfl
  rw [Json.read, readWith, hn, key]

/-- **C88** compile-dict, given the text, has the classes make-classes had - if every ending has at most 30 letters; otherwise it refuses the file. -/
theorem C88_loaded_partial (hc : conv [] = []) (m : ClassMap) (hne : m ≠ []) (hl : m.length < 2 ^ 31) (hp : ∀ c ∈ m, ClassPlain conv c) (hf : ∀ c ∈ m, ClassFits c)
    (hb : ∀ c ∈ m, ClassBack conv back c) :
    loadClasses readLax back (classesText conv m) = if ∀ c ∈ m, ∀ f ∈ c.1.2, f.2.length ≤ 30 then .ok (m.map toFuzzy) else .error .refused :=
  loadClasses_of m (C88_text hc m hne hl hp hf) hne hl hf hb

theorem empty_reads (lax : Bool) : readWith lax (classesText conv []) = some (classesJson conv []) := by
  have m1 := (reads_key (k := asciiBytes "created") (by unfold Plain; decide) (reads_decimal (lax := lax) 0)).ws (w := [10, 32, 32]) (by decide)
  have m2 := (reads_key (k := asciiBytes "classes") (by unfold Plain; decide) (reads_arr (lax := lax) (ts := []) .nil (w := [10, 32, 32]) (by decide))).ws
    (w := [10, 32, 32]) (by decide)
  have hobj := reads_obj (w := [10]) (.cons m1 (.cons m2 .nil)) (by decide)
  have e : classesText conv [] = 123 :: commas [[10, 32, 32] ++ (34 :: asciiBytes "created" ++ [34, 58] ++ 32 :: decimal 0),
      [10, 32, 32] ++ (34 :: asciiBytes "classes" ++ [34, 58] ++ 32 :: (91 :: commas [] ++ [10, 32, 32] ++ [93]))] ++ [10] ++ [125] ++ [10] := by
    show _ = _
    rw [classesText, classTexts]
    have l1 : asciiBytes "{\n  \"created\": " = [123, 10, 32, 32, 34, 99, 114, 101, 97, 116, 101, 100, 34, 58, 32] := by decide
    have l2 : asciiBytes ",\n  \"classes\": [\n" = [44, 10, 32, 32, 34, 99, 108, 97, 115, 115, 101, 115, 34, 58, 32, 91, 10] := by decide
    have l3 : asciiBytes "  ]\n}\n" = [32, 32, 93, 10, 125, 10] := by decide
    have k1 : asciiBytes "created" = [99, 114, 101, 97, 116, 101, 100] := by decide
    have k2 : asciiBytes "classes" = [99, 108, 97, 115, 115, 101, 115] := by decide
    rw [l1, l2, l3, k1, k2]
    simp [commas]
  have := hobj ((classesText conv []).length + 2) [10] (by rw [e]; simp) (ends_of (by simp; decide) _)
  rw [← e] at this
  rw [readWith, this]
  rfl

/-- **C88** No classes: good JSON, but compile-dict refuses it. -/
theorem C88_empty (conv back : List Byte → List Byte) : Json.read (classesText conv []) = some (classesJson conv []) ∧
    loadClasses readLax back (classesText conv []) = .error .refused := by
  refine ⟨empty_reads _, ?_⟩
  rw [loadClasses, show readLax (classesText conv []) = some (classesJson conv []) from empty_reads _, classesJson]
  simp only
  rw [if_pos]
  rfl

/-! ### The two tools after each other, in UTF-8 -/

/-- Letters and marks that the tools pass on. -/
def PassedByte (b : Byte) : Prop := utf8Known b ∧ 32 ≤ b ∧ b ≠ 34 ∧ b ≠ 92

/-- What the tool took of a lexeme can be passed on. -/
structure PassedOn (c : LexClass) : Prop where
  partSp : c.key.1 < 256
  some : c.key.2 ≠ []
  form : ∀ f ∈ c.key.2, f.1 < 256
  ending : ∀ f ∈ c.key.2, ∀ b ∈ f.2, PassedByte b
  suffix : PassedByte c.suffix.s0 ∧ PassedByte c.suffix.s1
  sample : ∀ b ∈ c.sample, PassedByte b

/-- `mbcstombcs` from 1251 to UTF-8 and back. -/
def toUtf8 (t : List Byte) : List Byte := inPage utf8Enc t
def fromUtf8 (t : List Byte) : List Byte := (utf8Dec t).getD []

theorem toUtf8_plain (t : List Byte) (h : ∀ b ∈ t, PassedByte b) : PlainText (toUtf8 t) := by
  intro x hx
  obtain ⟨b, hb, hx⟩ := List.mem_flatMap.1 hx
  obtain ⟨h0, h1, h2, h3⟩ := h b hb
  by_cases h : b < 128
  · simp only [utf8Enc, if_pos h, List.mem_singleton] at hx
    subst hx
    exact ⟨h1, h2, h3⟩
  · simp only [utf8Enc, if_neg h] at hx
    split at hx <;> simp at hx <;> omega

theorem fromUtf8_to (t : List Byte) (h : ∀ b ∈ t, PassedByte b) : fromUtf8 (toUtf8 t) = t := by
  rw [fromUtf8, toUtf8, utf8Dec_inPage t fun b hb => (h b hb).1]
  rfl

theorem mem_le_sum : ∀ (l : List Nat) (x : Nat), x ∈ l → x ≤ l.sum
  | y :: l, x, h => by
    rw [List.sum_cons]
    rcases List.mem_cons.1 h with rfl | h
    · omega
    · have := mem_le_sum l x h; omega

theorem length_le_sum : ∀ (l : List Nat), (∀ x ∈ l, 1 ≤ x) → l.length ≤ l.sum
  | [], _ => by simp
  | y :: l, h => by
    have := length_le_sum l fun x hx => h x (by simp [hx])
    have := h y (by simp)
    simp; omega

/-- **C88** make-classes and compile-dict: the classes made are the classes compiled. -/
theorem C88_passed_partial {T : ClassTool} (hT : T = rusTool ∨ T = engTool) {low : Byte → Byte} {M : Morpho} {buffer : List Byte} {sel ban : Nat → Bool}
    {limits : List (Nat × Nat)} {cs : List (LexClass × Bool)} (ht : TakenAs T low M buffer sel ban (limitIds limits) cs) (hno : ¬ AccentsClash cs)
    (sort : ClassMap → ClassMap) (hsort : ∀ m, (sort m).Perm m) (hn : cs.length < 2 ^ 31) (hpass : ∀ c ∈ cs, PassedOn c.1) :
    ∃ out text, makeClasses T low M buffer sel ban sort limits = .done out ∧ makeClassesText T low M buffer sel ban sort limits toUtf8 = .done text ∧
      loadClasses readLax fromUtf8 text = if out ≠ [] ∧ ∀ C ∈ out, ∀ f ∈ C.flexes, f.2.length ≤ 30 then .ok out else .error .refused := by
  obtain ⟨m, h1, h2⟩ := (C71_collects T low M buffer sel ban _ cs ht).2 hno
  obtain ⟨m', φ, h3, h4, -⟩ := C72_merges m (C72_collected hT ht h2)
  obtain ⟨rest, h5, h6, h7⟩ := C73_selection sort m' (C73_positive h2 h4).2 (hsort m')
  have hw : mapWeight m' = cs.length := (C72_total m m' φ h4).trans (collects_total h2)
  rw [hw] at h6 h7
  have hmade : Made cs sort ((printedClasses sort m').map toFuzzy) m m' φ := ⟨h2, h4, rfl, rest, h5, h6, h7⟩
  refine ⟨(printedClasses sort m').map toFuzzy, classesText toUtf8 (printedClasses sort m'), by rw [makeClasses, h1]; simp only [Ran.bind, h3],
    by rw [makeClassesText, h1]; simp only [Ran.bind, h3], ?_⟩
  have hin : ∀ e ∈ printedClasses sort m', e ∈ m' := fun e he => (hsort m').mem_iff.1 (by rw [h5]; simp [he])
  have hfrom : ∀ e ∈ printedClasses sort m', ClassPlain toUtf8 e ∧ ClassFits e ∧ ClassBack toUtf8 fromUtf8 e := by
    intro e he
    obtain ⟨k1, k2⟩ := h4.kept e.1 (List.mem_map.2 ⟨e, hin e he, rfl⟩)
    obtain ⟨c, hc, hk⟩ := (h2.keys e.1).1 k1
    have hgo := goesWith_merged h2 h4 hc (hin e he) (by rw [hk, k2])
    obtain ⟨k, -, -, -, hmod⟩ := C74_modelled hsort hmade (toFuzzy e) (List.mem_map.2 ⟨e, he, rfl⟩)
    have hms : ∀ s ∈ e.2.charSet, s.mdProd ≤ cs.length ∧ (PassedByte s.suffix.s0 ∧ PassedByte s.suffix.s1) ∧ ∀ b ∈ s.sample, PassedByte b := by
      intro s hs
      obtain ⟨h3, c, hc, -, h4, h5, h6⟩ := hmod ⟨s.suffix.s0, s.suffix.s1, s.mdProd, s.sample⟩ (List.mem_map.2 ⟨s, hs, rfl⟩)
      simp only at h3 h4 h5 h6
      refine ⟨?_, by rw [← h4, ← h5]; exact (hpass c hc).suffix, by rw [← h6]; exact (hpass c hc).sample⟩
      rw [h3, withLetters]
      exact (List.length_filter_le ..).trans (List.length_filter_le ..)
    have hsuf : ∀ s ∈ e.2.charSet, ∀ b ∈ [s.suffix.s0, s.suffix.s1], PassedByte b := by
      intro s hs b hb
      obtain ⟨-, h, -⟩ := hms s hs
      simp only [List.mem_cons, List.not_mem_nil, or_false] at hb
      rcases hb with rfl | rfl
      · exact h.1
      · exact h.2
    have hP := hpass c hc
    have hr : e.2.modProd ≤ cs.length := by
      rw [← hw, mapWeight]
      exact mem_le_sum _ _ (List.mem_map.2 ⟨e, hin e he, rfl⟩)
    refine ⟨⟨fun s hs => toUtf8_plain _ (hsuf s hs), fun s hs => toUtf8_plain _ (hms s hs).2.2, fun f hf => toUtf8_plain _ ?_⟩,
      ⟨?_, by omega, fun s hs => by have := (hms s hs).1; omega, ?_, ?_, ?_⟩,
      ⟨fun s hs => fromUtf8_to _ (hsuf s hs), fun s hs => fromUtf8_to _ (hms s hs).2.2, fun f hf => fromUtf8_to _ ?_⟩⟩
    · exact hP.ending f (by rw [hk]; exact hf)
    · rw [← hk]; exact hP.partSp
    · intro f hf; exact hP.form f (by rw [hk]; exact hf)
    · obtain ⟨mo, hmo, -⟩ := hgo.model
      intro h0
      rw [toFuzzy, h0] at hmo
      simp at hmo
    · rw [← hk]; exact hP.some
    · exact hP.ending f (by rw [hk]; exact hf)
  have hcnt : (printedClasses sort m').length ≤ cs.length := by
    rw [← hw]
    have hlen : (printedClasses sort m').length ≤ m'.length := by
      rw [← (hsort m').length_eq, h5]; simp
    refine hlen.trans ?_
    have := length_le_sum (m'.map fun e => e.2.modProd) (by
      intro x hx
      obtain ⟨e, he, rfl⟩ := List.mem_map.1 hx
      exact (C73_positive h2 h4).2 e he)
    simpa [mapWeight] using this
  by_cases hne : printedClasses sort m' = []
  · rw [hne, (C88_empty toUtf8 fromUtf8).2, if_neg (by simp)]
  · rw [C88_loaded_partial (by rfl) _ hne (by omega) (fun c hc => (hfrom c hc).1) (fun c hc => (hfrom c hc).2.1) (fun c hc => (hfrom c hc).2.2)]
    have : (∀ c ∈ printedClasses sort m', ∀ f ∈ c.1.2, f.2.length ≤ 30) ↔
        ((printedClasses sort m').map toFuzzy ≠ [] ∧ ∀ C ∈ (printedClasses sort m').map toFuzzy, ∀ f ∈ C.flexes, f.2.length ≤ 30) := by
      constructor
      · intro h
        refine ⟨by simpa using hne, ?_⟩
        intro C hC
        obtain ⟨c, hc, rfl⟩ := List.mem_map.1 hC
        exact h c hc
      · intro h c hc
        exact h.2 (toFuzzy c) (List.mem_map.2 ⟨c, hc, rfl⟩)
    simp only [this]

/-- The result, if there is one. -/
def Ran.elim' {α : Type} (d : α) : Ran α → α
  | .done a => a
  | _ => d

/-- The example of C74 meets the demands. -/
theorem C88_example : loadClasses readLax fromUtf8 ((makeClassesText rusTool asciiLow mixMorpho (List.replicate 100 0) (fun x => x == 3) (fun x => x == 2) byWeight
    [(1, 5)] toUtf8).elim' []) = .ok [boyClass] := by
  have hpass : ∀ c ∈ mixTaken, PassedOn c.1 := by
    have h : ∀ c ∈ mixTaken, c.1.key.1 < 256 ∧ c.1.key.2 ≠ [] ∧ (∀ f ∈ c.1.key.2, f.1 < 256) ∧ (∀ f ∈ c.1.key.2, ∀ b ∈ f.2, PassedByte b) ∧
        (PassedByte c.1.suffix.s0 ∧ PassedByte c.1.suffix.s1) ∧ ∀ b ∈ c.1.sample, PassedByte b := by
      unfold PassedByte
      decide +kernel
    exact fun c hc => ⟨(h c hc).1, (h c hc).2.1, (h c hc).2.2.1, (h c hc).2.2.2.1, (h c hc).2.2.2.2.1, (h c hc).2.2.2.2.2⟩
  obtain ⟨out, text, h1, h2, h3⟩ := C88_passed_partial (.inl rfl) mixTaken_taken mixTaken_accents byWeight byWeight_perm (by decide) hpass
  rw [C74_example] at h1
  obtain rfl := (Ran.done.inj h1).symm
  rw [h2]
  show loadClasses readLax fromUtf8 text = _
  rw [h3]
  decide +kernel

/-- **C88** The texts are not escaped: with a quotation mark in the sample the file cannot be read. -/
theorem C88_quote : (readLax (classesText id [((7, [(0, [97])]), ⟨[⟨⟨97, 98, false⟩, [97, 34, 98], 1⟩], 1, false⟩)])).isNone = Bool.true ∧
    (readLax (classesText id [((7, [(0, [97])]), ⟨[⟨⟨97, 98, false⟩, [97, 35, 98], 1⟩], 1, false⟩)])).isNone = Bool.false := by
  decide +kernel

/-- A file of one class with one model and one ending, written by hand. -/
def handMade (suffix sample : List (List Byte × JVal)) (flex : List (List Byte × JVal)) : JVal :=
  .obj [(asciiBytes "classes", .arr [.obj [(asciiBytes "models", .arr [.obj (suffix ++ sample)]), (asciiBytes "inflex", .arr [.obj flex])]])]

/-- **C88** In a file from elsewhere: an ending without text, or a model without suffix, ends the program by an exception that nothing catches (the messages are
for other faults); an ending without number or a suffix of another length than two letters is refused with a message. -/
theorem C88_faults (parse : List Byte → Option JVal) (text : List Byte) :
    (parse text = some (handMade [(asciiBytes "suffix", .str [97, 98])] [(asciiBytes "sample", .str [97])] [(asciiBytes "id", .int 0)]) →
      loadClasses parse id text = .error .crashed) ∧
    (parse text = some (handMade [] [(asciiBytes "sample", .str [97])] [(asciiBytes "id", .int 0), (asciiBytes "sz", .str [])]) →
      loadClasses parse id text = .error .crashed) ∧
    (parse text = some (handMade [(asciiBytes "suffix", .str [97, 98])] [(asciiBytes "sample", .str [97])] [(asciiBytes "sz", .str [])]) →
      loadClasses parse id text = .error .refused) ∧
    (parse text = some (handMade [(asciiBytes "suffix", .str [97])] [(asciiBytes "sample", .str [97])] [(asciiBytes "id", .int 0), (asciiBytes "sz", .str [])]) →
      loadClasses parse id text = .error .refused) ∧
    (parse text = some (handMade [(asciiBytes "suffix", .str [97, 98])] [(asciiBytes "sample", .str [97])] [(asciiBytes "id", .int 0), (asciiBytes "sz", .str [])]) →
      loadClasses parse id text = .ok [⟨0, Bool.false, [(0, [])], [⟨97, 98, 2 ^ 32 - 1, [97]⟩]⟩]) := by
  refine ⟨?_, ?_, ?_, ?_, ?_⟩ <;> intro h <;> rw [loadClasses, h, handMade] <;> decide +kernel

end Libmorph

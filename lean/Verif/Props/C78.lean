import Verif.Lemmas.DumpLicense
/-
C78: the C++ text the compilers write for an image is compiled to exactly that image.
-/
namespace Libmorph
open Spec

theorem dump_file (d : Dumper) (name : List Byte) (pieces : List (List Byte)) (h : pieces.flatten.length < 2 ^ 32) :
    (d.dump name pieces).file = some (d.openFile ++ arrayText name pieces.flatten) := by
  rw [Dumper.dump, arrayText, pieces_out, putbuff_out _ _ (by simpa using h)]
  simp

theorem dump_open (d : Dumper) (t : List Byte) (h : d.file = some t) : d.openFile = t := by
  rw [Dumper.openFile, h]

/-- What stands before and after the declarations. -/
def openToks (nspace : List Byte) : List CTok := if nspace = [] then [] else tokNamespace :: pathToks (pathOf nspace) ++ [.punct 123]
def closeToks (nspace : List Byte) : List CTok := if nspace = [] then [] else [.punct 125]

/-- The block of the namespace. -/
def blockOf (nspace : List Byte) : List (List (List Byte)) := if nspace = [] then [] else [pathOf nspace]

theorem blockOf_scope (nspace : List Byte) : (blockOf nspace).flatten = scopeOf nspace := by
  rw [blockOf, scopeOf]
  split <;> simp

theorem tok_head {license nspace : List Byte} (hl : license = [] ∨ NoTokens license) (hn : nspace = [] ∨ CPath nspace) (s : List Nat) :
    cTokens ((⟨license, nspace, none⟩ : Dumper).openFile ++ s) = (cTokens s).map (openToks nspace ++ ·) := by
  have h1 : ∀ r, cTokens ((if license = [] then [] else license ++ [10]) ++ r) = cTokens r := by
    intro r
    by_cases h : license = []
    · rw [if_pos h]; rfl
    · rw [if_neg h, List.append_assoc]
      rcases hl with hl | hl
      · exact absurd hl h
      · exact hl r
  rw [Dumper.openFile]
  simp only [List.append_assoc]
  rw [h1, openToks]
  by_cases h : nspace = []
  · rw [if_pos h, if_pos h]
    simp
  · rw [if_neg h, if_neg h]
    rcases hn with hn | hn
    · exact absurd hn h
    · have := tok_open hn s
      simp only [List.append_assoc] at this ⊢
      exact this

theorem tok_tail (nspace : List Byte) : cTokens (if nspace = [] then [] else cText "\n}  // end namespace\n\n") = some (closeToks nspace) := by
  rw [closeToks]
  split
  · exact tok_nil
  · exact tok_close

/-- Tokens, and what is read of them with `k` steps at least. -/
def Reads (k : Nat) (scope : List (List (List Nat))) (ts : List CTok) (ds : List CDecl) : Prop := ∀ n, k ≤ n → cDecls n scope ts = some ds

theorem reads_close (nspace : List Byte) : Reads 2 (blockOf nspace) (closeToks nspace) [] := by
  intro n hn
  obtain ⟨m, rfl⟩ : ∃ m, n = m + 2 := ⟨n - 2, by omega⟩
  rw [blockOf, closeToks]
  split
  · rfl
  · rfl

theorem reads_open {nspace : List Byte} {k : Nat} {ts : List CTok} {ds : List CDecl} (h : Reads k (blockOf nspace) ts ds) : Reads (k + 1) [] (openToks nspace ++ ts) ds := by
  intro n hn
  obtain ⟨m, rfl⟩ : ∃ m, n = m + 1 := ⟨n - 1, by omega⟩
  rw [openToks]
  rw [blockOf] at h
  split
  · rename_i he
    rw [if_pos he] at h
    exact h _ (by omega)
  · rename_i he
    rw [if_neg he] at h
    rw [decl_open (pathOf_ne _)]
    exact h m (by omega)

theorem reads_array {scope : List (List (List Nat))} {k : Nat} {ts : List CTok} {ds : List CDecl} {name : List Byte} {b : Byte} {bs : List Byte}
    (hb : ∀ x ∈ b :: bs, x < 256) (h : Reads k scope ts ds) : Reads (k + 1) scope (arrayToks name b bs ++ ts) (⟨scope.flatten, name, 8, true, b :: bs⟩ :: ds) := by
  intro n hn
  obtain ⟨m, rfl⟩ : ∃ m, n = m + 1 := ⟨n - 1, by omega⟩
  rw [decl_array hb, h m (by omega)]
  rfl

theorem cRead_of {text : List Nat} {ts : List CTok} {ds : List CDecl} {k : Nat} (h1 : cTokens text = some ts) (h2 : Reads k [] ts ds) (hk : k ≤ ts.length + 1) :
    cRead text = some ds := by
  rw [cRead, h1]
  exact h2 _ hk

/-- **C78.**  An image that is not empty (and is below 4 Gb), written with a comment before it and in a namespace or none, is a text of C++ that declares one
variable: in that namespace, of that name, an array of bytes, and its values are the image. -/
theorem C78_array {license nspace name : List Byte} {pieces : List (List Byte)} (hl : license = [] ∨ NoTokens license) (hs : nspace = [] ∨ CPath nspace)
    (hn : CName name) (hne : pieces.flatten ≠ []) (hlen : pieces.flatten.length < 2 ^ 32) (hb : ∀ b ∈ pieces.flatten, b < 256) :
    ∃ text, imageFile license nspace name pieces = some text ∧ cRead text = some [⟨scopeOf nspace, name, 8, true, pieces.flatten⟩] := by
  rw [imageFile, Dumper.close, dump_file _ _ _ hlen]
  refine ⟨_, rfl, ?_⟩
  obtain ⟨b, bs, e⟩ := List.exists_cons_of_ne_nil hne
  rw [e] at hb ⊢
  refine cRead_of (ts := openToks nspace ++ (arrayToks name b bs ++ closeToks nspace)) (k := 4) ?_ (reads_open (blockOf_scope nspace ▸ reads_array hb (reads_close nspace))) ?_
  · show cTokens (_ ++ _ ++ if nspace = [] then [] else cText "\n}  // end namespace\n\n") = _
    rw [List.append_assoc, tok_head hl hs, tok_arrayText hn.word b bs hb, tok_tail]
    rfl
  · simp [arrayToks]; omega

/-- The namespace: a name a::b::c says the namespace c in b in a, as `namespace NAMESPACE` of the run time does with the same name (lang-rus/libdict/CMakeLists.txt:7, 9, 90). -/
theorem C78_scope {names : List (List Byte)} (hne : names ≠ []) (h : ∀ n ∈ names, CName n) : scopeOf (joinPath names) = names := by
  rw [scopeOf, pathOf_join names hne fun n hn => (h n hn).word.no_colon, if_neg]
  intro he
  obtain ⟨n, ns, rfl⟩ := List.exists_cons_of_ne_nil hne
  obtain ⟨c, t, e, -⟩ := (h n (by simp)).word.some_
  cases ns with
  | nil => rw [joinPath, e] at he; simp at he
  | cons m ns => rw [joinPath, e] at he; simp at he

/-- How the image is cut into calls makes no difference. -/
theorem C78_pieces (license nspace name : List Byte) {p q : List (List Byte)} (h : p.flatten = q.flatten) :
    imageFile license nspace name p = imageFile license nspace name q := by
  rw [imageFile, imageFile, Dumper.dump, Dumper.dump, pieces_out, pieces_out, h]

/-- An empty image is no text of C++: an array has at least one element. -/
theorem C78_empty {license nspace name : List Byte} {pieces : List (List Byte)} (hl : license = [] ∨ NoTokens license) (hs : nspace = [] ∨ CPath nspace)
    (hn : CName name) (he : pieces.flatten = []) :
    ∃ text, imageFile license nspace name pieces = some text ∧ cRead text = none := by
  rw [imageFile, Dumper.close, dump_file _ _ _ (by simp [he])]
  refine ⟨_, rfl, ?_⟩
  show cRead (_ ++ _ ++ if nspace = [] then [] else cText "\n}  // end namespace\n\n") = _
  have e : arrayText name [] = [32, 32] ++ (cText "unsigned" ++ (32 :: (cText "char" ++ (32 :: (name ++ [91, 93, 32, 61, 10, 32, 32, 123, 10, 32, 32, 32, 32, 10, 32, 32, 125, 59, 10]))))) := by
    rw [arrayText, dumpBody, show cText "  unsigned char " = [32, 32] ++ cText "unsigned" ++ [32] ++ cText "char" ++ [32] by decide,
      show cText "[] =\n  {\n    " = [91, 93, 32, 61, 10, 32, 32, 123, 10, 32, 32, 32, 32] by decide, show cText "\n  };\n" = [10, 32, 32, 125, 59, 10] by decide]
    simp
  have ht : cTokens (arrayText name [] ++ if nspace = [] then [] else cText "\n}  // end namespace\n\n") = some (tokUnsigned :: tokChar :: .word name :: .punct 91 :: .punct 93 ::
      .punct 61 :: .punct 123 :: .punct 125 :: .punct 59 :: closeToks nspace) := by
    rw [e]
    simp only [List.append_assoc, List.cons_append, List.nil_append]
    rw [tok_blank (by decide), tok_blank (by decide), tok_word name_unsigned (notWord_of (by decide) _), tok_blank (by decide), tok_word name_char (notWord_of (by decide) _),
      tok_blank (by decide), tok_word hn.word (notWord_of (by decide) _), tok_punct (by decide), tok_punct (by decide), tok_blank (by decide), tok_punct (by decide),
      tok_blank (by decide), tok_blank (by decide), tok_blank (by decide), tok_punct (by decide), tok_blank (by decide), tok_blank (by decide), tok_blank (by decide),
      tok_blank (by decide), tok_blank (by decide), tok_blank (by decide), tok_blank (by decide), tok_blank (by decide), tok_punct (by decide), tok_punct (by decide), tok_blank (by decide), tok_tail]
    rfl
  rw [he, cRead, List.append_assoc, tok_head hl hs, ht]
  simp only [Option.map_some, Option.bind_some]
  have hu : cText "unsigned" = [117, 110, 115, 105, 103, 110, 101, 100] := by decide
  have hc : cText "char" = [99, 104, 97, 114] := by decide
  rw [tokUnsigned, tokChar, hu, hc]
  rw [openToks]
  split
  · rfl
  · rw [decl_open (pathOf_ne _)]
    simp only [List.cons_append, List.length_cons, List.length_append, ← Nat.add_assoc]
    rfl

/-- The license texts are comments. -/
theorem C78_license : NoTokens rusLicense ∧ NoTokens engLicense := license_blank

/-! ### The file of the fuzzy analyser -/

/-- The text of the offsets. -/
def offText : Nat → List Byte → List Nat → List Byte
  | _, _, [] => []
  | i, pre, o :: os => pre ++ (cText "0x" ++ hexText 6 o) ++ offText (i + 1) (if i % 6 = 5 then cText ",\n    " else cText ", ") os

theorem printOffsets_file : ∀ (os : List Nat) (i : Nat) (pre : List Byte) (d : Dumper) (t : List Byte), d.file = some t →
    printOffsets i pre os d = { d with file := some (t ++ offText i pre os) }
  | [], i, pre, d, t, h => by simp [printOffsets, offText, ← h]
  | o :: os, i, pre, d, t, h => by
    rw [printOffsets, printOffsets_file os (i + 1) _ _ (t ++ (pre ++ (cText "0x" ++ hexText 6 o))) (by simp [Dumper.print, dump_open d t h])]
    simp [Dumper.print, offText]

theorem offText_sep (i : Nat) (s : List Nat) : cTokens ((if i % 6 = 5 then cText ",\n    " else cText ", ") ++ s) = (cTokens s).map (CTok.punct 44 :: ·) := by
  split
  · show cTokens (44 :: 10 :: 32 :: 32 :: 32 :: 32 :: s) = _
    rw [tok_punct (by decide), tok_blank (by decide), tok_blank (by decide), tok_blank (by decide), tok_blank (by decide), tok_blank (by decide)]
  · show cTokens (44 :: 32 :: s) = _
    rw [tok_punct (by decide), tok_blank (by decide)]

theorem offText_head (i : Nat) (os : List Nat) (j : Nat) (s : List Nat) (hs : ∀ c, s.head? = some c → isWordChar c = false) :
    ∀ c, (offText i (if j % 6 = 5 then cText ",\n    " else cText ", ") os ++ s).head? = some c → isWordChar c = false := by
  cases os with
  | nil => simpa [offText] using hs
  | cons o os =>
    intro c hc
    rw [offText] at hc
    have : c = 44 := by
      split at hc
      · have : (cText ",\n    ").head? = some 44 := by decide
        simp [List.head?_append, this] at hc
        exact hc.symm
      · have : (cText ", ").head? = some 44 := by decide
        simp [List.head?_append, this] at hc
        exact hc.symm
    rw [this]; decide

theorem tok_offs : ∀ (os : List Nat) (i j : Nat), (∀ o ∈ os, o < 2 ^ 32) → ∀ s, (∀ c, s.head? = some c → isWordChar c = false) →
    cTokens (offText i (if j % 6 = 5 then cText ",\n    " else cText ", ") os ++ s) = (cTokens s).map (itemToks os ++ ·)
  | [], i, j, _, s, _ => by simp [offText, itemToks]
  | o :: os, i, j, ho, s, hs => by
    rw [offText, List.append_assoc, List.append_assoc, offText_sep, tok_hex (by omega) (ho o (by simp)) _ (offText_head (i + 1) os i s hs),
      tok_offs os (i + 1) i (fun o h => ho o (by simp [h])) s hs]
    cases cTokens s <;> simp [itemToks]

theorem tok_offsets (o : Nat) (os : List Nat) (ho : ∀ x ∈ o :: os, x < 2 ^ 32) (s : List Nat) (hs : ∀ c, s.head? = some c → isWordChar c = false) :
    cTokens (offText 0 (cText "    ") (o :: os) ++ s) = (cTokens s).map ((CTok.num o :: itemToks os) ++ ·) := by
  rw [offText, List.append_assoc, List.append_assoc, tok_blanks _ _ (by decide), tok_hex (by omega) (ho o (by simp)) _ (offText_head 1 os 0 s hs),
    tok_offs os 1 0 (fun o h => ho o (by simp [h])) s hs]
  cases cTokens s <;> simp

/-- The tokens of the number of classes and of their offsets. -/
def numberToks (v : Nat) : List CTok := [tokUnsigned, .word (cText "ClassNumber"), .punct 61, .num v, .punct 59]
def offsetToks (o : Nat) (os : List Nat) : List CTok :=
  tokUnsigned :: .word (cText "ClassOffset") :: .punct 91 :: .punct 93 :: .punct 61 :: .punct 123 :: ((.num o :: itemToks os) ++ [.punct 125, .punct 59])

theorem name_number : CWord (cText "ClassNumber") := ⟨⟨67, cText "lassNumber", by decide, by decide⟩, by decide⟩
theorem name_offset : CWord (cText "ClassOffset") := ⟨⟨67, cText "lassOffset", by decide, by decide⟩, by decide⟩
theorem name_tables : CName (cText "ClassTables") := ⟨⟨⟨67, cText "lassTables", by decide, by decide⟩, by decide⟩, by decide⟩
theorem name_reverse : CName (cText "ReverseDict") := ⟨⟨⟨82, cText "everseDict", by decide, by decide⟩, by decide⟩, by decide⟩

theorem tok_number {v : Nat} (hv : v < 2 ^ 32) (s : List Nat) :
    cTokens (cText "  unsigned  ClassNumber = " ++ decText v ++ cText ";\n\n  unsigned  ClassOffset[] =\n  {\n" ++ s) =
      (cTokens s).map (numberToks v ++ [tokUnsigned, .word (cText "ClassOffset"), .punct 91, .punct 93, .punct 61, .punct 123] ++ ·) := by
  obtain ⟨c, t, e1, hc, ht, hl⟩ := decText_read hv
  have e : cText "  unsigned  ClassNumber = " ++ decText v ++ cText ";\n\n  unsigned  ClassOffset[] =\n  {\n" ++ s =
      [32, 32] ++ (cText "unsigned" ++ (32 :: 32 :: (cText "ClassNumber" ++ (32 :: 61 :: 32 :: (c :: t ++ (59 :: ([10, 10, 32, 32] ++ (cText "unsigned" ++ (32 :: 32 :: (cText "ClassOffset" ++
        (91 :: 93 :: 32 :: 61 :: ([10, 32, 32] ++ (123 :: 10 :: s))))))))))))) := by
    rw [e1, show cText "  unsigned  ClassNumber = " = [32, 32] ++ cText "unsigned" ++ [32, 32] ++ cText "ClassNumber" ++ [32, 61, 32] by decide,
      show cText ";\n\n  unsigned  ClassOffset[] =\n  {\n" = [59, 10, 10, 32, 32] ++ cText "unsigned" ++ [32, 32] ++ cText "ClassOffset" ++ [91, 93, 32, 61, 10, 32, 32, 123, 10] by decide]
    simp
  rw [e, tok_blanks _ _ (by decide), tok_word name_unsigned (notWord_of (by decide) _), tok_blank (by decide), tok_blank (by decide), tok_word name_number (notWord_of (by decide) _),
    tok_blank (by decide), tok_punct (by decide), tok_blank (by decide), tok_num hc ht hl (notWord_of (by decide) _), tok_punct (by decide), tok_blanks _ _ (by decide),
    tok_word name_unsigned (notWord_of (by decide) _), tok_blank (by decide), tok_blank (by decide), tok_word name_offset (notWord_of (by decide) _),
    tok_punct (by decide), tok_punct (by decide), tok_blank (by decide), tok_punct (by decide), tok_blanks _ _ (by decide), tok_punct (by decide), tok_blank (by decide)]
  cases cTokens s <;> simp [numberToks, tokUnsigned]

theorem tok_arrayEnd (s : List Nat) : cTokens (cText "\n  };\n" ++ s) = (cTokens s).map ([CTok.punct 125, .punct 59] ++ ·) := by
  show cTokens (10 :: 32 :: 32 :: 125 :: 59 :: 10 :: s) = _
  rw [tok_blank (by decide), tok_blank (by decide), tok_blank (by decide), tok_punct (by decide), tok_punct (by decide), tok_blank (by decide)]
  cases cTokens s <;> simp

theorem reads_number {scope : List (List (List Nat))} {k : Nat} {ts : List CTok} {ds : List CDecl} {v : Nat} (hv : v < 2 ^ 32) (h : Reads k scope ts ds) :
    Reads (k + 1) scope (numberToks v ++ ts) (⟨scope.flatten, cText "ClassNumber", 32, false, [v]⟩ :: ds) := by
  intro n hn
  obtain ⟨m, rfl⟩ : ∃ m, n = m + 1 := ⟨n - 1, by omega⟩
  have hu : cText "unsigned" = [117, 110, 115, 105, 103, 110, 101, 100] := by decide
  rw [numberToks, tokUnsigned, hu]
  simp only [List.cons_append, List.nil_append]
  rw [cDecls]
  simp only [reduceCtorEq, if_false, if_true]
  rw [if_neg (by decide), if_pos hv, h m (by omega)]
  rfl

theorem reads_offsets {scope : List (List (List Nat))} {k : Nat} {ts : List CTok} {ds : List CDecl} {o : Nat} {os : List Nat} (ho : ∀ x ∈ o :: os, x < 2 ^ 32)
    (h : Reads k scope ts ds) : Reads (k + 1) scope (offsetToks o os ++ ts) (⟨scope.flatten, cText "ClassOffset", 32, true, o :: os⟩ :: ds) := by
  intro n hn
  obtain ⟨m, rfl⟩ : ∃ m, n = m + 1 := ⟨n - 1, by omega⟩
  have hu : cText "unsigned" = [117, 110, 115, 105, 103, 110, 101, 100] := by decide
  have e : offsetToks o os ++ ts = tokUnsigned :: .word (cText "ClassOffset") :: .punct 91 :: .punct 93 :: .punct 61 :: .punct 123 ::
      ((.num o :: itemToks os) ++ CTok.punct 125 :: (CTok.punct 59 :: ts)) := by
    simp [offsetToks]
  rw [e, tokUnsigned, hu, cDecls]
  simp only [reduceCtorEq, if_false, if_true]
  rw [if_neg (by decide), cItems_of]
  simp only
  rw [if_pos ho, h m (by omega)]
  rfl

theorem fuzzyOffsets_lt : ∀ (rs : List (List Byte)) (o : Nat), (∀ r ∈ rs, r ≠ []) → o + rs.flatten.length < 2 ^ 32 → ∀ x ∈ fuzzyOffsets o rs, x < 2 ^ 32
  | [], o, _, _, x, hx => by simp [fuzzyOffsets] at hx
  | r :: rs, o, hr, h, x, hx => by
    rw [List.flatten_cons, List.length_append] at h
    rw [fuzzyOffsets] at hx
    rcases List.mem_cons.1 hx with rfl | hx
    · omega
    · exact fuzzyOffsets_lt rs _ (fun r h => hr r (by simp [h])) (by omega) x hx

/-- **C78, the fuzzy analyser.**  The text of its file declares the number of the classes, the offsets of their records, the records and the tree, as they are. -/
theorem C78_fuzzy {nspace : List Byte} {records dict : List (List Byte)} (hs : nspace = [] ∨ CPath nspace) (hr : records ≠ []) (hr' : ∀ r ∈ records, r ≠ [])
    (hrl : records.flatten.length < 2 ^ 32) (hrb : ∀ b ∈ records.flatten, b < 256) (hd : dict.flatten ≠ []) (hdl : dict.flatten.length < 2 ^ 32)
    (hdb : ∀ b ∈ dict.flatten, b < 256) :
    ∃ text, fuzzyFile nspace records dict = some text ∧ cRead text = some [
      ⟨scopeOf nspace, cText "ClassNumber", 32, false, [records.length]⟩,
      ⟨scopeOf nspace, cText "ClassOffset", 32, true, fuzzyOffsets 0 records⟩,
      ⟨scopeOf nspace, cText "ClassTables", 8, true, records.flatten⟩,
      ⟨scopeOf nspace, cText "ReverseDict", 8, true, dict.flatten⟩] := by
  have hlen : records.length < 2 ^ 32 := by
    have : records.length ≤ records.flatten.length := by
      clear hr hrl hrb
      induction records with
      | nil => simp
      | cons r rs ih =>
        have := ih fun r h => hr' r (by simp [h])
        have := List.length_pos_iff.2 (hr' r (by simp))
        rw [List.flatten_cons, List.length_append, List.length_cons]; omega
    omega
  obtain ⟨o, os, eo⟩ : ∃ o os, fuzzyOffsets 0 records = o :: os := by
    cases records with
    | nil => exact absurd rfl hr
    | cons r rs => exact ⟨_, _, rfl⟩
  have ho : ∀ x ∈ o :: os, x < 2 ^ 32 := by
    rw [← eo]; exact fuzzyOffsets_lt records 0 hr' (by simpa using hrl)
  obtain ⟨b, bs, eb⟩ : ∃ b bs, records.flatten = b :: bs := by
    refine List.exists_cons_of_ne_nil ?_
    cases records with
    | nil => exact absurd rfl hr
    | cons r rs =>
      have := hr' r (by simp)
      intro h
      rw [List.flatten_cons, List.append_eq_nil_iff] at h
      exact this h.1
  obtain ⟨c, cs, ec⟩ := List.exists_cons_of_ne_nil hd
  refine ⟨(⟨[], nspace, none⟩ : Dumper).openFile ++ ((cText "  unsigned  ClassNumber = " ++ decText records.length ++ cText ";\n\n  unsigned  ClassOffset[] =\n  {\n") ++
    (offText 0 (cText "    ") (o :: os) ++ (cText "\n  };\n" ++ (arrayText (cText "ClassTables") (b :: bs) ++ (arrayText (cText "ReverseDict") (c :: cs) ++
      (if nspace = [] then [] else cText "\n}  // end namespace\n\n")))))), ?_, ?_⟩
  · rw [fuzzyFile, Dumper.close]
    rw [dump_file _ _ _ hdl, dump_open _ _ (dump_file _ _ _ hrl), ec, eb, eo]
    rw [printOffsets_file _ _ _ _ _ rfl]
    simp [Dumper.print, Dumper.dump, Dumper.openFile]
  · refine cRead_of (ts := openToks nspace ++ (numberToks records.length ++ (offsetToks o os ++ (arrayToks (cText "ClassTables") b bs ++
      (arrayToks (cText "ReverseDict") c cs ++ closeToks nspace))))) (k := 7) ?_ ?_ ?_
    · rw [tok_head (Or.inl rfl) hs, tok_number hlen, tok_offsets o os ho _ (by
        rw [show cText "\n  };\n" = 10 :: cText "  };\n" by decide, List.cons_append]; exact notWord_of (by decide) _), tok_arrayEnd,
        tok_arrayText name_tables.word b bs (by rw [← eb]; exact hrb), tok_arrayText name_reverse.word c cs (by rw [← ec]; exact hdb), tok_tail]
      simp [offsetToks]
    · rw [eo, eb, ec]
      exact reads_open (blockOf_scope nspace ▸ reads_number hlen (reads_offsets ho (reads_array (by rw [← eb]; exact hrb) (reads_array (by rw [← ec]; exact hdb) (reads_close nspace)))))
    · simp [numberToks, offsetToks, arrayToks]; omega

end Libmorph

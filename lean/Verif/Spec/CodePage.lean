import Verif.Model.CodePage
import Verif.Spec.Reports
/-
Code pages: the contract of the external conversion, and texts converted.
-/
namespace Libmorph

/-- A text of code page 1251, converted character by character. -/
def inPage (enc : Byte → List Byte) (p : List Byte) : List Byte := p.flatMap enc

/-- What is assumed of `mbcstombcs` for a code page: it converts character by character, `enc` giving the code of each byte of
1251 and `known` telling which of them the page has.  With more room than the text takes it succeeds, and writes a zero
behind the text; with less it fails; when the text just fits it may do either, with no zero then. -/
structure Page.Ok (P : Page) (enc : Byte → List Byte) (known : Byte → Prop) : Prop where
  into_room : ∀ n w, (∀ b ∈ w, known b) → w.length < n → P.into n (inPage enc w) = some w
  into_some : ∀ n w t, (∀ b ∈ w, known b) → P.into n (inPage enc w) = some t → t = w ∧ w.length ≤ n
  from_room : ∀ n p, (inPage enc p).length < n → P.from1251 n p = some ((inPage enc p).length, inPage enc p ++ [0])
  from_some : ∀ n p k o, P.from1251 n p = some (k, o) →
    k = (inPage enc p).length ∧ (o = inPage enc p ∨ o = inPage enc p ++ [0]) ∧ o.length ≤ n
  zero : enc 0 = [0]
  code : ∀ b, b ≠ 0 → enc b ≠ [] ∧ 0 ∉ enc b

/-- A buffer `B` after the texts `ts` have been written to it, each with a zero behind it: a zero follows if anything was
written and if there is room. -/
def filled (B : List Byte) (ts : List (List Byte)) : List Byte :=
  if ts = [] then B else (packed ts ++ 0 :: B.drop ((packed ts).length + 1)).take B.length

/-- Two functions that write texts to a buffer, one in code page 1251 and one in another: they deliver the same texts.
`there`: what the first delivers the second delivers converted, if there is room for it, and else it answers LEMMBUFF_FAILED;
`back`: what the second delivers is the conversion of what the first delivers when there is room;
`refused`: another error is an error in both. -/
structure SameTexts (enc : Byte → List Byte) (native page : List Byte → Option (Int × Option (List Byte))) : Prop where
  there : ∀ B n B', B ≠ [] → native B = some (n, some B') → 0 ≤ n → ∃ ts : List (List Byte), (ts.length : Int) = n ∧ B' = filled B ts ∧
    ∀ C, C ≠ [] →
      ((packed (ts.map (inPage enc))).length < C.length → page C = some (n, some (filled C (ts.map (inPage enc))))) ∧
      (C.length < (packed (ts.map (inPage enc))).length → ∃ C', page C = some (LEMMBUFF_FAILED, some C') ∧ C'.length = C.length)
  back : ∀ C n C', C ≠ [] → page C = some (n, some C') → 0 ≤ n → ∃ ts : List (List Byte), (ts.length : Int) = n ∧
    C' = filled C (ts.map (inPage enc)) ∧ (packed (ts.map (inPage enc))).length ≤ C.length ∧
    ∀ B, B ≠ [] →
      ((packed ts).length < B.length → native B = some (n, some (filled B ts))) ∧
      (B.length ≤ (packed ts).length → ∃ B', native B = some (LEMMBUFF_FAILED, some B') ∧ B'.length = B.length)
  refused : ∀ B e B', B ≠ [] → native B = some (e, some B') → e < 0 → e ≠ LEMMBUFF_FAILED →
    ∀ C, C ≠ [] → ∃ C', page C = some (e, some C') ∨ page C = some (LEMMBUFF_FAILED, some C')

/-- The records of two answers with the same lemmas `ts`: the lexemes and the places of the descriptions are the same, and each
record points to its lemma, in one array in code page 1251 and in the other in another. -/
def SameRecords (enc : Byte → List Byte) (ts : List (List Byte)) (l m : Option (List Lemm)) : Prop :=
  (l = none ∧ m = none) ∨ ∃ a b, l = some a ∧ m = some b ∧ a.length = b.length ∧ ts.length ≤ a.length ∧
    ∀ i x y, a[i]? = some x → b[i]? = some y → x.nlexid = y.nlexid ∧ x.pgrams = y.pgrams ∧ x.ngrams = y.ngrams ∧
      (i < ts.length → x.plemma = (packed (ts.take i)).length ∧ y.plemma = (packed ((ts.take i).map (inPage enc))).length)

/-- Two functions that lemmatize a word, given a buffer for the lemmas: they give the same lemmas `ts`, the same lexemes and the
same descriptions. -/
structure SameLemmas (enc : Byte → List Byte) (native page : List Byte → Option (Int × LemmState)) : Prop where
  there : ∀ B n s, native B = some (n, s) → 0 ≤ n → ∃ ts : List (List Byte), (ts.length : Int) = n ∧ s.forms.buf = some (filled B ts) ∧
    (∀ B', (packed ts).length < B'.length → ∃ s', native B' = some (n, s') ∧ s'.forms.buf = some (filled B' ts)) ∧
    ∀ C,
      ((packed (ts.map (inPage enc))).length < C.length → ∃ t, page C = some (n, t) ∧
        t.forms.buf = some (filled C (ts.map (inPage enc))) ∧ t.grams = s.grams ∧ SameRecords enc ts s.lemms t.lemms) ∧
      (C.length < (packed (ts.map (inPage enc))).length → ∃ t, page C = some (LEMMBUFF_FAILED, t))
  back : ∀ C n t, page C = some (n, t) → 0 ≤ n → ∃ ts : List (List Byte), (ts.length : Int) = n ∧
    t.forms.buf = some (filled C (ts.map (inPage enc))) ∧ (packed (ts.map (inPage enc))).length ≤ C.length ∧
    ∀ B,
      ((packed ts).length < B.length → ∃ s, native B = some (n, s) ∧
        s.forms.buf = some (filled B ts) ∧ t.grams = s.grams ∧ SameRecords enc ts s.lemms t.lemms) ∧
      (B.length < (packed ts).length → ∃ s, native B = some (LEMMBUFF_FAILED, s))
  refused : ∀ B e s, native B = some (e, s) → e < 0 → e ≠ LEMMBUFF_FAILED →
    ∀ C, ∃ t, page C = some (e, t) ∨ page C = some (LEMMBUFF_FAILED, t)

/-! ### Wildcard search -/

/-- What the search finds: lexeme, text, description, in the order of the search. -/
def rusFound (im : RusImages) (tail smatch str : List Byte) : Option (List (Nat × List Byte × Gram)) :=
  (wildScan (rusWildTarget im fun id text g V => some (0, V ++ [(id, text, g)])) (im.stemtree ++ tail) str (smatch, [])).map fun r => r.2.2

/-- The matches of a lexeme, converted. -/
def convMatches (enc : Byte → List Byte) (ms : List StrMatch) : List StrMatch := ms.map fun m => ⟨inPage enc m.text, m.id⟩

/-- The calls of the client, converted. -/
def convCalls (enc : Byte → List Byte) (calls : List (Nat × List StrMatch)) : List (Nat × List StrMatch) :=
  calls.map fun c => (c.1, convMatches enc c.2)

/-- The bytes the texts of a lexeme take, each with a zero. -/
def matchBytes (ms : List StrMatch) : Nat := (ms.map fun m => m.text.length + 1).sum

end Libmorph

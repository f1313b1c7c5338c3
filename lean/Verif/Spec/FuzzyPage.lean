import Verif.Model.FuzzyPage
import Verif.Spec.CodePage
/-
The fuzzy analysers in another code page: what "the same guesses" are.
-/
namespace Libmorph

variable {ω : Type}

/-- What is assumed of a code page for the fuzzy analysers, besides `Page.Ok`: a capital takes as many bytes as the small letter; UTF-8
counts the bytes of a character; in the other pages every character is a byte. -/
structure FuzzyPage.Ok (Q : FuzzyPage) (T : CharTab) (enc : Byte → List Byte) (known : Byte → Prop) : Prop where
  page : Q.page.Ok enc known
  caps : ∀ b, (enc (T.upper b)).length = (enc b).length
  utf8 : ∀ f, Q.width = some f → ∀ b, f b = (enc b).length
  bytes : Q.width = none → ∀ b, (enc b).length = 1

/-- The record of a guess `x` in a page: `x.plemma` is the number of its lemma in the list `ts`, `x.ccstem` the number of letters of the
stem.  In the record the first is the place of that lemma in the buffer, the second the bytes the stem takes there. -/
def guessRecord (conv : List Byte → List Byte) (ts : List (List Byte)) (x : FuzzyStem ω) : FuzzyStem ω :=
  { x with
    plemma := x.plemma.map fun i => (packed ((ts.take i).map conv)).length
    ccstem := (conv ((ts.getD (x.plemma.getD 0) []).take x.ccstem)).length }

/-- The guesses and their lemmas: the i-th guess has the i-th lemma; its stem is a part of the lemma. -/
def GuessesOf (zs : List (FuzzyStem ω)) (ts : List (List Byte)) : Prop :=
  zs.length = ts.length ∧ ∀ (i : Nat) (x : FuzzyStem ω), zs[i]? = some x → x.plemma = some i ∧ ∀ t : List Byte, ts[i]? = some t → x.ccstem ≤ t.length

/-- Two functions that analyse a word, given an array for the records, sorted by `sort`, and a buffer for the lemmas: they give the same
guesses with the same lemmas, weights and descriptions. -/
structure SameGuesses (enc : Byte → List Byte) (sort : List (FuzzyStem ω) → List (FuzzyStem ω)) (out : Option (List (FuzzyStem ω)))
    (native page : List Byte → Option (Int × Option (List (FuzzyStem ω)) × FuzzyState ω)) : Prop where
  there : ∀ B n o s, native B = some (n, o, s) → 0 ≤ n → ∃ (zs : List (FuzzyStem ω)) (ts : List (List Byte)), GuessesOf zs ts ∧ (ts.length : Int) = n ∧ s.forms.buf = some (filled B ts) ∧
    (ts ≠ [] → (packed ts).length < B.length) ∧
    o = (out.map fun l => sort (zs.map (guessRecord id ts)) ++ l.drop ts.length) ∧
    (∀ B', (packed ts).length < B'.length → ∃ s', native B' = some (n, (out.map fun l => sort (zs.map (guessRecord id ts)) ++ l.drop ts.length), s') ∧
        s'.forms.buf = some (filled B' ts) ∧ s'.grams = s.grams) ∧
    ∀ C, ((packed (ts.map (inPage enc))).length < C.length → ∃ t,
        page C = some (n, (out.map fun l => sort (zs.map (guessRecord (inPage enc) ts)) ++ l.drop ts.length), t) ∧
        t.forms.buf = some (filled C (ts.map (inPage enc))) ∧ t.grams = s.grams) ∧
      (C.length < (packed (ts.map (inPage enc))).length → ∃ o t, page C = some (LEMMBUFF_FAILED, o, t))
  back : ∀ C n o t, page C = some (n, o, t) → 0 ≤ n → ∃ (zs : List (FuzzyStem ω)) (ts : List (List Byte)), GuessesOf zs ts ∧ (ts.length : Int) = n ∧
    t.forms.buf = some (filled C (ts.map (inPage enc))) ∧ (packed (ts.map (inPage enc))).length ≤ C.length ∧
    o = (out.map fun l => sort (zs.map (guessRecord (inPage enc) ts)) ++ l.drop ts.length) ∧
    ∀ B, ((packed ts).length < B.length → ∃ s, native B = some (n, (out.map fun l => sort (zs.map (guessRecord id ts)) ++ l.drop ts.length), s) ∧
        s.forms.buf = some (filled B ts) ∧ t.grams = s.grams) ∧
      (B.length < (packed ts).length → ∃ o s, native B = some (LEMMBUFF_FAILED, o, s))
  refused : ∀ B e o s, native B = some (e, o, s) → e < 0 → e ≠ LEMMBUFF_FAILED →
    ∀ C, ∃ o' t, page C = some (e, o', t) ∨ page C = some (LEMMBUFF_FAILED, o', t)
  errors : (∀ B, ∃ e o s, native B = some (e, o, s) ∧ e < 0) → ∀ C, ∃ e o t, page C = some (e, o, t) ∧ e < 0

end Libmorph

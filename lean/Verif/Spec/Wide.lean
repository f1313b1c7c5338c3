import Verif.Model.Wide
import Verif.Spec.Lemm
/-
The interfaces for wide characters: the contract of the external conversions, and what it is to mirror the byte interface.
-/
namespace Libmorph

/-- What is assumed of the conversions of `moonycode`: they convert character by character, by `byte` and by `wide`; a word
shorter than the buffer is converted, never more is written than the buffer holds; a string shorter than the buffer is
written with a zero and its length is returned. -/
structure Codec.Ok (C : Codec) (byte : Nat → Byte) (wide : Byte → Nat) : Prop where
  narrow_some : ∀ n w s, C.narrow n w = some s → s = w.map byte ∧ s.length ≤ n
  narrow_room : ∀ n w, w.length < n → (C.narrow n w).isSome
  widen : ∀ n s, s.length < n → 0 ∉ s → C.widen n s = (some s.length, s.map wide ++ [0])

/-- Strings, converted, each with a zero. -/
def widePacked (wide : Byte → Nat) (ts : List (List Byte)) : List Nat := ts.flatMap fun t => t.map wide ++ [0]

/-- A record of the wide interface mirrors a record of the byte interface: lexeme, descriptions; its text, in the buffer `W`, is the
converted text of the other, in the buffer `B`. -/
structure LemmMirrors (wide : Byte → Nat) (B : Option (List Byte)) (W : Option (List Nat)) (x : Lemm) (y : LemmW) : Prop where
  nlexid : y.nlexid = x.nlexid
  pgrams : y.pgrams = x.pgrams
  ngrams : y.ngrams = x.ngrams
  text : ∀ b v, B = some b → W = some v → ∃ o t, y.plemma = some o ∧ 0 ∉ t ∧ t ++ [0] <+: b.drop x.plemma ∧ t.map wide ++ [0] <+: v.drop o
  null : W = none → y.plemma = none

/-- What a byte lemmatizer, called for a word with buffers `L`, `B`, `G`, does: the lemmas are those of the steps `H`; it reports them
when there is certainly room, and fails when there is certainly none. -/
def LemmSpec (lem : Option (List Lemm) → Option (List Byte) → Option (List Gram) → Option (Int × LemmState)) (H : List LemmStep) : Prop :=
  ∀ L B G, (GroupRoomy L B G (lemmGroups L.isSome H) →
      ∃ s, lem L B G = some (((lemmGroups L.isSome H).length : Int), s) ∧ GroupReported L B G (lemmGroups L.isSome H) s) ∧
    (JoinSafe L G H → ¬ GroupFits L B G (lemmGroups L.isSome H) → ∃ r s, lem L B G = some (r, s) ∧ r < 0)

/-- The outcome of the wide lemmatizer (buffers `out'`, `W'`, `G'` where there were `out`, `W`) mirrors the outcome `s` of the byte
lemmatizer, `n` lemmas: the descriptions are the same, each record mirrors the record of the same number, and behind the records the
buffer is as it was. -/
structure WideMirrors (wide : Byte → Nat) (n : Nat) (s : LemmState) (out : Option (List LemmW)) (W : Option (List Nat))
    (out' : Option (List LemmW)) (W' : Option (List Nat)) (G' : Option (List Gram)) : Prop where
  grams : G' = s.grams
  sizes : out'.map List.length = out.map List.length ∧ W'.map List.length = W.map List.length
  records : ∀ o', out' = some o' → ∀ i < n, ∃ l x y, s.lemms = some l ∧ l[i]? = some x ∧ o'[i]? = some y ∧
    LemmMirrors wide s.forms.buf W' x y
  rest : out'.map (List.drop n) = out.map (List.drop n)

/-- The room the wide lemmatizer has on its stack: 32 records, 240 bytes; where a reading joins a record, it needs one record more. -/
structure WideRoom (out : Option (List LemmW)) (W : Option (List Nat)) (G : Option (List Gram)) (gs : List LemmGroup) : Prop where
  records : out.isSome → gs.length ≤ 32
  joined : out.isSome → G.isSome → Joined gs → gs.length < 32
  texts : W.isSome → gs ≠ [] → (groupTexts gs).length < 240

/-- The outcome of a request for the forms `fs` in wide characters with the buffer `out`: where there is room, their number, and the converted
forms one after another, each with a zero, then the old content; otherwise LEMMBUFF_FAILED (-1) and the old content. -/
def WideFormOutcome (wide : Byte → Nat) (r : Option (Int × Option (List Nat))) (fs : List (List Byte)) (room : Prop) (out : List Nat) : Prop :=
  (room → r = some ((fs.length : Int), some (widePacked wide fs ++ out.drop (widePacked wide fs).length))) ∧
  (¬ room → r = some (-1, some out))

/-- A call of the client of a wide search for a call of the client of a byte search: the same lexeme, the same forms, converted. -/
def wideCall (wide : Byte → Nat) (c : Nat × List StrMatch) : Nat × List StrMatchW := (c.1, c.2.map fun m => ⟨m.text.map wide, m.id⟩)

/-- A codec that converts nothing. -/
def idCodec : Codec where
  narrow n w := if w.length < n then some (w.map fun c => c % 256) else none
  widen n s := if s.length < n then (some s.length, s ++ [0]) else (none, [])

end Libmorph

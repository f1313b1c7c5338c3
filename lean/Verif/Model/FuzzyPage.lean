import Verif.Model.Fuzzy
import Verif.Model.CodePage
/-
The fuzzy analysers in code pages other than 1251 (`CMlfaMb<codepage>`, lang-rus/libprob/mlfamain.cpp, lang-eng/libprob/mlfamain.cpp):
the word is converted before the analysis (`ToCanonic`, 245-270), the texts delivered afterwards (`MbcsCoder`), the length of the stem is
counted anew for UTF-8 (lemmatizer.hpp:174-186), and the samples are converted (`GetModels`, 125-179).  The rest is the code modelled
in `Model/Fuzzy`.
-/
namespace Libmorph

/-- A code page other than 1251: the conversion and, for UTF-8, `utf8::cbchar( xlatWinToUtf16[b] )` (external), the number of bytes
of a character. -/
structure FuzzyPage where
  page : Page
  width : Option (Byte → Nat)

/-- lemmatizer.hpp:126-152, as `fuzzyOpen`. -/
def fuzzyOpenIn {ω : Type} (P : Page) (L : FuzzyLang) (rank : FuzzyRank ω) (junk word : List Byte) (clemma : Nat) (ref : FuzzyRef)
    (partsp sets : Nat) (pclass : List Byte) (s : FuzzyState ω) : Option (Option Int × FuzzyState ω) :=
  if s.stems.getLast?.any fun x => x.nclass == ref.cls && x.ccstem == clemma + 2 then some (none, s)
  else do
    let weight ← rank.run (word.length - clemma - 1) ref.power partsp ref.form sets
    if s.stems.length = 64 then return (some LEMMBUFF_FAILED, s)
    else
      let stem : FuzzyStem ω := ⟨s.forms.buf.map fun _ => s.forms.pos, clemma + 2, ref.cls, s.grams.map fun _ => s.gcur, 0, weight⟩
      let s := { s with stems := closeLast s.gcur s.stems ++ [stem] }
      if s.forms.buf.isSome then do
        let (ccflex, p) ← getbyte (pclass.drop 1)
        if clemma + 2 + ccflex ≥ 0x40 then return (some WORDBUFF_FAILED, s)
        else
          let flex ← strncpyOf p ccflex
          if word.length < clemma + 2 then none
          else
            let (form, _) ← fuzzyForm L junk (word.take (clemma + 2)) flex partsp
            let (ok, c) ← s.forms.appendzIn P form
            if ok then return (none, { s with forms := c }) else return (some LEMMBUFF_FAILED, { s with forms := c })
      else return (none, s)

/-- `Lemmatizer::operator()`, lemmatizer.hpp:104-163, as `fuzzyCall`. -/
def fuzzyCallIn {ω : Type} (P : Page) (L : FuzzyLang) (im : FuzzyImages) (rank : FuzzyRank ω) (junk word : List Byte) (scheme dwsets : Nat) :
    FuzzyCall (FuzzyState ω) := fun clemma ref s => do
  match ← fuzzyClass im ref.cls with
  | none => return (some (-1), s)
  | some (partsp, sets, _, pclass) =>
    let good ← (if L.caps && dwsets &&& sfIgnoreCapitals == 0 then (fuzzyMinCap partsp).map (isGood scheme) else some true : Option Bool)
    if !good then return (none, s)
    else
      let (r, s) ← fuzzyOpenIn P L rank junk word clemma ref partsp sets pclass s
      match r with
      | some r => return (some r, s)
      | none =>
        match s.grams with
        | none => return (none, s)
        | some g =>
          if s.gcur < g.length then return (none, { s with grams := some (g.set s.gcur ⟨partsp, ref.form, 0, 0⟩), gcur := s.gcur + 1 })
          else return (some GRAMBUFF_FAILED, s)

/-- lemmatizer.hpp:177-185: the length of the stem in bytes of UTF-8, from the letters of the word in small letters; `none`: there are
fewer. -/
def widenStem {ω : Type} (width : Byte → Nat) (word : List Byte) (x : FuzzyStem ω) : Option (FuzzyStem ω) :=
  if word.length < x.ccstem then none else some { x with ccstem := ((word.take x.ccstem).map width).sum }

/-- `operator int`, lemmatizer.hpp:164-194, as `fuzzyFinish`. -/
def fuzzyFinishIn {ω : Type} (width : Option (Byte → Nat)) (word : List Byte) (sort : List (FuzzyStem ω) → List (FuzzyStem ω))
    (pstems : Option (List (FuzzyStem ω))) (s : FuzzyState ω) : Option (Int × Option (List (FuzzyStem ω)) × FuzzyState ω) :=
  let s := { s with stems := closeLast s.gcur s.stems }
  match pstems with
  | none => some (s.stems.length, none, s)
  | some out =>
    if s.stems.length > out.length then some (LEMMBUFF_FAILED, some out, s)
    else
      match width with
      | none => some (s.stems.length, some (sort s.stems ++ out.drop s.stems.length), s)
      | some width =>
        if s.forms.buf.isSome then do
          let stems ← s.stems.mapM (widenStem width word)
          return (s.stems.length, some (sort stems ++ out.drop s.stems.length), s)
        else some (s.stems.length, some (sort s.stems ++ out.drop s.stems.length), s)

/-- `ToCanonic`, mlfamain.cpp:245-270, for another code page. -/
def fuzzyCanonicIn (P : Page) (L : FuzzyLang) (w : List Byte) : Option (Option (List Byte × Nat)) :=
  if w.length = 0 then some (some ([], 0))
  else
    match P.into 256 w with
    | none => some none
    | some t => capGet L.tab 256 t

/-- `CMlfaMb<codepage>::Lemmatize`, mlfamain.cpp:181-214, as `fuzzyLemmatize`. -/
def fuzzyLemmatizeIn {ω : Type} (Q : FuzzyPage) (L : FuzzyLang) (im : FuzzyImages) (rank : FuzzyRank ω)
    (sort : List (FuzzyStem ω) → List (FuzzyStem ω)) (before junk : List Byte) (w : List Byte) (pstems : Option (List (FuzzyStem ω)))
    (pforms : Option (List Byte)) (pgrams : Option (List Gram)) (dwsets : Nat) :
    Option (Int × Option (List (FuzzyStem ω)) × FuzzyState ω) := do
  let s0 : FuzzyState ω := { forms := ⟨pforms, 0⟩, grams := pgrams }
  match ← fuzzyCanonicIn Q.page L w with
  | none => return (WORDBUFF_FAILED, pstems, s0)
  | some (locase, scheme) =>
    if scheme = 0 then return (0, pstems, s0)
    else if scheme % 256 = 0xff && dwsets &&& sfIgnoreCapitals = 0 then return (0, pstems, s0)
    else
      let (r, s) ← patScan (fuzzyCallIn Q.page L im rank junk locase (scheme % 65536) dwsets) im.reverse (locase.reverse ++ before)
        (scheme >>> 16) s0
      match r with
      | some e => return (e, pstems, s)
      | none => fuzzyFinishIn Q.width locase sort pstems s

/-- buildforms.hpp:77-99, as `fuzzyFormLoop`. -/
def fuzzyFormLoopIn (P : Page) (L : FuzzyLang) (stem : List Byte) (partsp idform : Nat) :
    Nat → List Byte → List Byte → Coder → Int → Option (Int × Coder)
  | 0, _, _, c, nb => some (nb, c)
  | n + 1, p, junk, c, nb => do
    let (id, p) ← getbyte p
    if id ≠ idform then return (nb, c)
    else
      let (cc, p) ← getbyte p
      if stem.length + cc > 0x40 then return (WORDBUFF_FAILED, c)
      else
        let flex ← strncpyOf p cc
        let (form, junk) ← fuzzyForm L junk stem flex partsp
        let (ok, c) ← c.appendzIn P form
        if ok then fuzzyFormLoopIn P L stem partsp idform n (p.drop cc) junk c (nb + 1) else return (LEMMBUFF_FAILED, c)

/-- `CMlfaMb<codepage>::BuildForm`, mlfamain.cpp:216-243, as `fuzzyBuildForm`. -/
def fuzzyBuildFormIn (P : Page) (L : FuzzyLang) (im : FuzzyImages) (junk : List Byte) (output : Option (List Byte)) (w : List Byte)
    (nclass idform : Nat) : Option (Int × Option (List Byte)) := do
  let cw ← fuzzyCanonicIn P L w
  match output with
  | none => return (ARGUMENT_FAILED, none)
  | some buf =>
    if buf.length = 0 ∨ nclass ≥ im.offsets.length then return (ARGUMENT_FAILED, some buf)
    else
      match cw with
      | none => return (WORDBUFF_FAILED, some buf)
      | some (locase, scheme) =>
        if scheme = 0 then return (0, some buf)
        else
          match ← fuzzyClass im nclass with
          | none => return (ARGUMENT_FAILED, some buf)
          | some (partsp, _, fcount, p) =>
            let (n, p) ← skipForms idform fcount p
            let (r, c) ← fuzzyFormLoopIn P L (locase.take (scheme >>> 16)) partsp idform n p junk ⟨some buf, 0⟩ 0
            return (r, c.buf)

/-- mlfamain.cpp:155-173 for another code page: `models` is moved by the length returned and one more; when it comes to lie beyond the end
of the buffer, the size passed next is negative and taken for a huge one (undefined). -/
def modelsLoopIn (P : Page) : Nat → List Byte → List Byte → Nat → Int → Option (Int × List Byte)
  | 0, _, buf, _, n => some (n, buf)
  | k + 1, p, buf, pos, n => do
    let (_, p) ← getbyte p
    let (_, p) ← getbyte p
    let (_, p) ← getserial p
    let (size, p) ← getserial p
    if p.length < size then none
    else if buf.length < pos then none
    else
      match P.from1251 (buf.length - pos) (p.take size) with
      | none => return (if n = 0 then LEMMBUFF_FAILED else n, buf)
      | some (k', o) => do
        let buf ← pokes buf pos o
        modelsLoopIn P k (p.drop size) buf (pos + k' + 1) (n + 1)

/-- `CMlfaMb<codepage>::GetModels`, mlfamain.cpp:125-179, as `fuzzyGetModels`. -/
def fuzzyGetModelsIn (P : Page) (im : FuzzyImages) (models : Option (List Byte)) (uclass : Nat) : Option (Int × Option (List Byte)) := do
  match models with
  | none => return (ARGUMENT_FAILED, none)
  | some buf =>
    if buf.length = 0 then return (ARGUMENT_FAILED, some buf)
    else
      match ← fuzzyClass im uclass with
      | none => return (ARGUMENT_FAILED, some buf)
      | some (_, _, fcount, p) =>
        let p ← skipFlexes fcount p
        let (mcount, p) ← getserial p
        let (n, buf) ← modelsLoopIn P mcount p buf 0 0
        return (n, some buf)

end Libmorph

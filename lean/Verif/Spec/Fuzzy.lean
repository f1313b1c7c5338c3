import Verif.Model.Fuzzy
import Verif.Spec.Caps
import Verif.Spec.RusForms
/-
The fuzzy analysers: what they are to do, in terms of the source classes and the word.
-/
namespace Libmorph

/-! ### Which models explain a word -/

/-- The models and endings of class number `i` that spell `tail`: the two letters of the model, then the ending. -/
def FuzzyClass.refsAt (c : FuzzyClass) (i : Nat) (tail : List Byte) : List FuzzyRef :=
  c.flexes.flatMap fun f => c.models.filterMap fun m =>
    if [m.s0, m.s1] ++ f.2 = tail then some ⟨i, m.weight, f.1⟩ else none

/-- All that explains `tail`, class after class. -/
def fuzzyRefsAt (cs : List FuzzyClass) (tail : List Byte) : List FuzzyRef :=
  cs.zipIdx.flatMap fun p => p.1.refsAt p.2 tail

/-- All that explains an end of the word, shorter ends first; with every reference the length of the rest of the word. -/
def fuzzyVisits (cs : List FuzzyClass) (w : List Byte) : List (Nat × FuzzyRef) :=
  (List.range (w.length + 1)).flatMap fun n =>
    (fuzzyRefsAt cs (w.drop (w.length - n))).map fun r => (w.length - n, r)

/-- A collector run over a list of visits: it stops at the first that answers. -/
def runVisits {σ : Type} (call : FuzzyCall σ) : List (Nat × FuzzyRef) → σ → Option (Option Int × σ)
  | [], s => some (none, s)
  | v :: vs, s => do
    let (r, s) ← call v.1 v.2 s
    match r with
    | some r => return (some r, s)
    | none => runVisits call vs s

/-! ### Trees -/

mutual
/-- The value stored under a key. -/
def PTree.get : PTree → List Byte → Option (List FuzzyRef)
  | .node key val kids, k =>
    if key <+: k then (if k.drop key.length = [] then val else PTree.gets kids (k.drop key.length)) else none
/-- The value stored under a key in one of several trees. -/
def PTree.gets : List PTree → List Byte → Option (List FuzzyRef)
  | [], _ => none
  | t :: ts, k => (t.get k).or (PTree.gets ts k)
end

/-- The characters of the top node. -/
def PTree.key : PTree → List Byte
  | .node key _ _ => key

/-- Numbers that fit the serialization. -/
def FuzzyRef.Small (r : FuzzyRef) : Prop := r.cls < 2 ^ 32 ∧ r.power < 2 ^ 32

mutual
/-- A tree the external `mtc::patricia` may write: below a node the first characters are different and go up, the numbers
fit the serialization. -/
def PTree.WF : PTree → Prop
  | .node key val kids =>
    key.length < 2 ^ 32 ∧ 2 * kids.length + 1 < 2 ^ 32
      ∧ (PTree.sers kids ++ (val.map refsSer).getD []).length < 2 ^ 32
      ∧ (∀ l, val = some l → l.length < 2 ^ 32 ∧ ∀ r ∈ l, r.Small)
      ∧ (∀ t ∈ kids, t.key ≠ []) ∧ (kids.map fun t => t.key.headD 0).Pairwise (· < ·)
      ∧ PTree.WFs kids
/-- The same of several trees. -/
def PTree.WFs : List PTree → Prop
  | [] => True
  | t :: ts => t.WF ∧ PTree.WFs ts
end

/-- The tree holds the map: under every key the references the compiler stored under it. -/
def PTree.Holds (t : PTree) (m : FuzzyMap) : Prop := ∀ k, t.get k = m.lookup k

/-! ### Lemmas -/

/-- The Russian and the English fuzzy analyser. -/
def rusFuzzy : FuzzyLang := ⟨rusTab, true⟩
def engFuzzy : FuzzyLang := ⟨engTab, false⟩

/-- The class of a number. -/
def classOf (cs : List FuzzyClass) (i : Nat) : FuzzyClass := cs[i]?.getD ⟨0, false, [], []⟩

/-- A supposed lemma: the length of the stem, the class, and the endings with models that explain the end of the word. -/
structure FuzzyLemma where
  ccstem : Nat
  cls : Nat
  refs : List FuzzyRef
deriving DecidableEq, Repr

/-- The lemmas of a word: for every end of the word every class that explains it and whose capitalization the word has. -/
def fuzzyLemmas (fits : FuzzyClass → Bool) (cs : List FuzzyClass) (w : List Byte) : List FuzzyLemma :=
  (List.range (w.length + 1)).flatMap fun n => cs.zipIdx.filterMap fun p =>
    if p.1.refsAt p.2 (w.drop (w.length - n)) ≠ [] ∧ fits p.1 then
      some ⟨w.length - n + 2, p.2, p.1.refsAt p.2 (w.drop (w.length - n))⟩
    else none

/-- The word, as it is spelled, may be a word of the class. -/
def fuzzyFits (L : FuzzyLang) (w : List Byte) (dwsets : Nat) (c : FuzzyClass) : Bool :=
  dwsets &&& sfIgnoreCapitals != 0 ||
    (if L.caps then decide (CapsFit L.tab w (pspMinCap c.partSp)) else (spelling L.tab w).isSome)

/-- A word as it is printed: with the capitals of a demand, if the language looks at them. -/
def FuzzyLang.printed (L : FuzzyLang) (demand : Nat) (w : List Byte) : List Byte := if L.caps then rusPrinted demand w else w

/-- The first ending of a class: the one of the normal form. -/
def FuzzyClass.normal (c : FuzzyClass) : List Byte := (c.flexes.head?.map (·.2)).getD []

/-- The text of a lemma. -/
def fuzzyText (L : FuzzyLang) (cs : List FuzzyClass) (w : List Byte) (x : FuzzyLemma) : List Byte :=
  L.printed (pspMinCap (classOf cs x.cls).partSp) (w.take x.ccstem ++ (classOf cs x.cls).normal)

/-- The texts of several lemmas, each with a zero. -/
def fuzzyTexts (L : FuzzyLang) (cs : List FuzzyClass) (w : List Byte) (xs : List FuzzyLemma) : List Byte :=
  (xs.map fun x => fuzzyText L cs w x ++ [0]).flatten

/-- The weight of a lemma: by the first of its references. -/
def fuzzyWeight {ω : Type} (R : FuzzyRank ω) (cs : List FuzzyClass) (w : List Byte) (x : FuzzyLemma) : ω :=
  R.weight (w.length - (x.ccstem - 2) - 1) ((x.refs.head?.map (·.power)).getD 0) (classOf cs x.cls).partSp
    ((x.refs.head?.map (·.form)).getD 0) (if (classOf cs x.cls).accent then 1 else 0)

/-- The descriptions of several lemmas. -/
def fuzzyGrams (cs : List FuzzyClass) (xs : List FuzzyLemma) : List Gram :=
  xs.flatMap fun x => x.refs.map fun r => ⟨(classOf cs x.cls).partSp, r.form, 0, 0⟩

/-- The lemmas as they are reported: texts and descriptions in the buffers one after another, from `o` and `g` on.  Without
a buffer the pointer is null, without a buffer for descriptions there are none. -/
def fuzzyLay {ω : Type} (R : FuzzyRank ω) (L : FuzzyLang) (cs : List FuzzyClass) (w : List Byte) (hasForms hasGrams : Bool) :
    Nat → Nat → List FuzzyLemma → List (FuzzyStem ω)
  | _, _, [] => []
  | o, g, x :: xs =>
    ⟨if hasForms then some o else none, x.ccstem, x.cls, if hasGrams then some g else none,
      if hasGrams then x.refs.length else 0, fuzzyWeight R cs w x⟩
    :: fuzzyLay R L cs w hasForms hasGrams (o + (fuzzyText L cs w x).length + 1) (g + x.refs.length) xs

/-- Everything has room: 64 lemmas at most; texts below 64 bytes that fit the buffer; descriptions that fit the buffer. -/
structure FuzzyRoom (L : FuzzyLang) (cs : List FuzzyClass) (w : List Byte) (pforms : Option (List Byte))
    (pgrams : Option (List Gram)) (xs : List FuzzyLemma) : Prop where
  count : xs.length ≤ 64
  words : pforms.isSome → ∀ x ∈ xs, x.ccstem + (classOf cs x.cls).normal.length < 64
  forms : ∀ B, pforms = some B → xs ≠ [] → (fuzzyTexts L cs w xs).length < B.length
  grams : ∀ G, pgrams = some G → (fuzzyGrams cs xs).length ≤ G.length

/-- The answer of the lemmatizer that reports the lemmas `xs` of the word `w` (in small letters): their number; the stems,
sorted, in the client's array, what is beyond unchanged; the texts and the descriptions in their buffers. -/
def FuzzyReported {ω : Type} (R : FuzzyRank ω) (L : FuzzyLang) (cs : List FuzzyClass) (w : List Byte)
    (sort : List (FuzzyStem ω) → List (FuzzyStem ω)) (pstems : Option (List (FuzzyStem ω))) (pforms : Option (List Byte))
    (pgrams : Option (List Gram)) (xs : List FuzzyLemma) (res : Option (Int × Option (List (FuzzyStem ω)) × FuzzyState ω)) : Prop :=
  ∃ st : FuzzyState ω, res = some ((xs.length : Int),
      (pstems.map fun out => sort (fuzzyLay R L cs w pforms.isSome pgrams.isSome 0 0 xs) ++ out.drop xs.length), st) ∧
    (∀ B, pforms = some B → st.forms.pos = (fuzzyTexts L cs w xs).length ∧
      ∃ tail, st.forms.buf = some (fuzzyTexts L cs w xs ++ tail) ∧ (fuzzyTexts L cs w xs ++ tail).length = B.length) ∧
    (pforms = none → st.forms.buf = none) ∧
    st.grams = pgrams.map fun G => fuzzyGrams cs xs ++ G.drop (fuzzyGrams cs xs).length

/-- The answer of the lemmatizer that reports an error: the client's array is as it was. -/
def FuzzyRefused {ω : Type} (pstems : Option (List (FuzzyStem ω))) (res : Option (Int × Option (List (FuzzyStem ω)) × FuzzyState ω)) : Prop :=
  ∃ e st, res = some (e, pstems, st) ∧ e ∈ [LEMMBUFF_FAILED, WORDBUFF_FAILED, GRAMBUFF_FAILED]

/-- The limits of the source classes: endings of at most 14 letters, parts of speech and form numbers that the tables of
weights have, numbers that fit the serialization. -/
structure FuzzyOk {ω : Type} (R : FuzzyRank ω) (L : FuzzyLang) (cs : List FuzzyClass) : Prop where
  flexes : ∀ c ∈ cs, c.flexes.length < 2 ^ 32
  short : ∀ c ∈ cs, ∀ f ∈ c.flexes, f.2.length ≤ 14
  text : ∀ c ∈ cs, ∀ f ∈ c.flexes, ∀ b ∈ f.2, b ≠ 0 ∧ b < 256
  partSp : ∀ c ∈ cs, c.partSp < 64
  ranks : ∀ c ∈ cs, ∀ f ∈ c.flexes, ∃ n, R.sizes[c.partSp]? = some n ∧ ∀ k, n = some k → f.1 < k

/-- A byte that ends a word for `CapScheme::Set`. -/
def EndsWord (T : CharTab) (c : Byte) : Prop := c = 0 ∨ T.ctype c = ctDlm

/-- What the array `szform` happens to contain ends a word of length `n`. -/
def FuzzyStops (L : FuzzyLang) (junk : List Byte) (n : Nat) : Prop := L.caps = true → ∃ c ∈ junk.drop n, EndsWord L.tab c

/-! ### Forms and models -/

/-- The endings of a class for a form number. -/
def FuzzyClass.endings (c : FuzzyClass) (form : Nat) : List (List Byte) := (c.flexes.filter (·.1 = form)).map (·.2)

/-- The forms of a stem in a class for a form number, printed. -/
def fuzzyForms (L : FuzzyLang) (c : FuzzyClass) (stem : List Byte) (form : Nat) : List (List Byte) :=
  (c.endings form).map fun e => L.printed (pspMinCap c.partSp) (stem ++ e)

/-- The longest beginning of a list of strings that fits `n` bytes, a zero after each. -/
def fittingTexts (n : Nat) : List (List Byte) → List (List Byte)
  | [] => []
  | x :: xs => if x.length < n then x :: fittingTexts (n - x.length - 1) xs else []

/-- Strings, each with a zero. -/
def zeroed (xs : List (List Byte)) : List Byte := (xs.map fun x => x ++ [0]).flatten

end Libmorph

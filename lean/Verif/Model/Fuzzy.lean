import Verif.Model.EngRun
import Verif.Model.RusRun
import Mathlib.Data.List.Sort
/-
The fuzzy analysers: lang-rus/libprob/*, lang-eng/libprob/* (code page 1251).

Conventions as in `Model/EngRun.lean`: `none` is undefined behaviour; a collector answers `some r` to stop the scan.
`FetchFrom` of a number (external `mtc`) is `getserial`, `FetchFrom` of a `uint8_t` is `getbyte`.
-/
namespace Libmorph

/-! ### The dictionary compiler: lang-rus/libprob/tools/compile-dict.cpp (lang-eng: the same) -/

/-- `ClassRef`, compile-dict.cpp:45-49. -/
structure FuzzyRef where
  cls : Nat
  power : Nat
  form : Byte
deriving DecidableEq, Repr

/-- `ClassRef::Serialize`, compile-dict.cpp:53-55. -/
def FuzzyRef.ser (r : FuzzyRef) : List Byte := putserial r.cls ++ putserial r.power ++ [r.form]

/-- `Model`, compile-dict.cpp:97-101; the suffix has two characters (232-234). -/
structure FuzzyModel where
  s0 : Byte
  s1 : Byte
  weight : Nat
  sample : List Byte
deriving DecidableEq, Repr

/-- `Model::Serialize`, compile-dict.cpp:103-109. -/
def FuzzyModel.ser (m : FuzzyModel) : List Byte :=
  [m.s0, m.s1] ++ putserial m.weight ++ (putserial m.sample.length ++ m.sample)

/-- A class of the source file: part of speech, accent ("b"), endings with their form numbers, models. -/
structure FuzzyClass where
  partSp : Byte
  accent : Bool
  flexes : List (Byte × List Byte)
  models : List FuzzyModel
deriving DecidableEq, Repr

/-- `FlexNode::Serialize`, compile-dict.cpp:73-82. -/
def fuzzyFlexSer (f : Byte × List Byte) : List Byte := f.1 :: (f.2.length % 256) :: f.2.take (f.2.length % 256)

/-- The order of models, compile-dict.cpp:283-291 (weights below 2^31: the difference does not wrap). -/
def modelBefore (a b : FuzzyModel) : Bool :=
  decide (b.weight < a.weight) || (a.weight == b.weight && !bytesLt b.sample a.sample)

/-- compile-dict.cpp:283-291: `std::sort` of the models. -/
def sortModels (ms : List FuzzyModel) : List FuzzyModel := ms.insertionSort fun a b => modelBefore a b = true

/-- compile-dict.cpp:283-296: the record of a class.  Simplification: `std::sort` leaves models that are equal in weight and
sample in the order in which they were. -/
def FuzzyClass.ser (c : FuzzyClass) : List Byte :=
  [c.partSp, if c.accent then 1 else 0] ++ (putserial c.flexes.length ++ (c.flexes.map fuzzyFlexSer).flatten)
    ++ (putserial c.models.length ++ ((sortModels c.models).map FuzzyModel.ser).flatten)

/-- The map the reverse dictionary is made of (`mtc::patricia::tree`, external): keys with their references. -/
abbrev FuzzyMap := List (List Byte × List FuzzyRef)

/-- compile-dict.cpp:271-273: append a reference to the list of a key. -/
def FuzzyMap.push (m : FuzzyMap) (k : List Byte) (r : FuzzyRef) : FuzzyMap :=
  match m with
  | [] => [(k, [r])]
  | (k', l) :: m => if k' = k then (k', l ++ [r]) :: m else (k', l) :: FuzzyMap.push m k r

/-- compile-dict.cpp:261-269: the key of an ending with a model, backwards. -/
def fuzzyKey (f : List Byte) (m : FuzzyModel) : List Byte := f.reverse ++ [m.s1, m.s0]

/-- compile-dict.cpp:247-277: one class, number `n`: every ending with every model. -/
def FuzzyMap.addClass (m : FuzzyMap) (n : Nat) (c : FuzzyClass) : FuzzyMap :=
  c.flexes.foldl (fun m f => c.models.foldl (fun m x => m.push (fuzzyKey f.2 x) ⟨n, x.weight, f.1⟩) m) m

/-- compile-dict.cpp:205-302: all the classes. -/
def fuzzyMap (cs : List FuzzyClass) : FuzzyMap :=
  (cs.foldl (fun (p : FuzzyMap × Nat) c => (p.1.addClass p.2 c, p.2 + 1)) ([], 0)).1

/-- compile-dict.cpp:306-324: the offsets of the class records. -/
def fuzzyOffsets : Nat → List (List Byte) → List Nat
  | _, [] => []
  | o, r :: rs => o :: fuzzyOffsets (o + r.length) rs

/-- A tree of `mtc::patricia` (external; the layout is the one the run time reads, scandict.hpp:45-148): the characters of a
node, its value and the nodes below it. -/
inductive PTree where
  | node (key : List Byte) (val : Option (List FuzzyRef)) (kids : List PTree)

/-- `std::vector<ClassRef>`. -/
def refsSer (l : List FuzzyRef) : List Byte := putserial l.length ++ (l.map FuzzyRef.ser).flatten

mutual
/-- The image of a node: number of characters, twice the number of nodes below plus one when there is a value, characters,
length of the rest, nodes below, value. -/
def PTree.ser : PTree → List Byte
  | .node key val kids =>
    putserial key.length ++ putserial (2 * kids.length + (if val.isSome then 1 else 0)) ++ key
      ++ putserial (PTree.sers kids ++ (val.map refsSer).getD []).length ++ (PTree.sers kids ++ (val.map refsSer).getD [])
/-- The images of nodes one after another. -/
def PTree.sers : List PTree → List Byte
  | [] => []
  | t :: ts => t.ser ++ PTree.sers ts
end

/-- The images: `ReverseDict`, `ClassOffset`, `ClassTables`; classtable.hpp:40-43. -/
structure FuzzyImages where
  reverse : List Byte
  offsets : List Nat
  tables : List Byte

/-- compile-dict.cpp:304-332: write the images, the map being stored as `t`. -/
def fuzzyImages (cs : List FuzzyClass) (t : PTree) : FuzzyImages :=
  ⟨t.ser, fuzzyOffsets 0 (cs.map FuzzyClass.ser), (cs.map FuzzyClass.ser).flatten⟩

/-! ### The scan: lang-rus/libprob/scandict.hpp (lang-eng: the same) -/

/-- `patricia::JumpOver`, scandict.hpp:45-59. -/
def patJump : Nat → List Byte → Option (List Byte)
  | 0, p => some p
  | n + 1, p => do
    let (cchars, p) ← getserial p
    let (_, p) ← getserial p
    let (curlen, p) ← getserial (p.drop cchars)
    patJump n (p.drop curlen)

/-- A collector: what is left of the word, the reference. -/
abbrev FuzzyCall (σ : Type) := Nat → FuzzyRef → σ → Option (Option Int × σ)

/-- scandict.hpp:71-84: the references one after another. -/
def patListLoop {σ : Type} (call : FuzzyCall σ) (clemma : Nat) : Nat → List Byte → σ → Option (Option Int × σ)
  | 0, _, s => some (none, s)
  | n + 1, p, s => do
    let (uclass, p) ← getserial p
    let (upower, p) ← getserial p
    let (idform, p) ← getbyte p
    let (r, s) ← call clemma ⟨uclass, upower, idform⟩ s
    match r with
    | some r => return (some r, s)
    | none => patListLoop call clemma n p s

/-- `patricia::ScanList`, scandict.hpp:61-86. -/
def patList {σ : Type} (call : FuzzyCall σ) (clemma : Nat) (p : List Byte) (s : σ) : Option (Option Int × σ) := do
  let (n, p) ← getserial p
  patListLoop call clemma n p s

/-- scandict.hpp:108-110: compare the characters of a node with the word, backwards; `none` inside: different. -/
def patMatch : Nat → List Byte → List Byte → Option (Option (List Byte × List Byte))
  | 0, p, rev => some (some (p, rev))
  | n + 1, p, rev => do
    let (c, p) ← getbyte p
    let (k, rev) ← getbyte rev
    if c ≠ k then return none else patMatch n p rev

/-- scandict.hpp:120-145: the node below that begins with the next character.  The character is read also when the word
is exhausted: then it is the byte before the word. -/
def patKids (rev : List Byte) : Nat → List Byte → Option (Option (Nat × Nat × List Byte))
  | 0, _ => some none
  | n + 1, p => do
    let (cchars, p) ← getserial p
    let (cnodes, p) ← getserial p
    let (c, _) ← getbyte p
    let (k, _) ← getbyte rev
    if k > c then do
      let (sublen, p) ← getserial (p.drop cchars)
      patKids rev n (p.drop sublen)
    else if k = c then return some (cchars, cnodes, p)
    else return none

/-- `patricia::ScanTree`, scandict.hpp:99-147: the loop.  `rev` is the memory from the current character backwards.  The
first argument bounds the number of turns: every turn has a shorter image. -/
def patLoop {σ : Type} (call : FuzzyCall σ) : Nat → Nat → Nat → List Byte → List Byte → Nat → σ → Option (Option Int × σ)
  | 0, _, _, _, _, _, _ => none
  | fuel + 1, nchars, nnodes, p, rev, cchkey, s => do
    if nnodes = 0 then return (none, s)
    else if cchkey < nchars then return (none, s)
    else
      match ← patMatch nchars p rev with
      | none => return (none, s)
      | some (p, rev) =>
        let (_, q) ← getserial p
        let (r, s) ← (if nnodes % 2 = 1 then do
            let v ← patJump (nnodes / 2) q
            patList call (cchkey - nchars) v s
          else some (none, s) : Option (Option Int × σ))
        match r with
        | some r => return (some r, s)
        | none =>
          match ← patKids rev (nnodes / 2) q with
          | none => return (none, s)
          | some (cchars, cnodes, p) => patLoop call fuel cchars cnodes p rev (cchkey - nchars) s

/-- `patricia::ScanTree`, scandict.hpp:88-148. -/
def patScan {σ : Type} (call : FuzzyCall σ) (patree rev : List Byte) (cchkey : Nat) (s : σ) : Option (Option Int × σ) := do
  let (nchars, p) ← getserial patree
  let (nnodes, p) ← getserial p
  patLoop call (patree.length + 1) nchars nnodes p rev cchkey s

/-! ### Classes -/

/-- `GetClass`, classtable.hpp:45-50, and the head of a class record, lemmatizer.hpp:114-117; `none` inside: the number is
too big (an exception is thrown). -/
def fuzzyClass (im : FuzzyImages) (uclass : Nat) : Option (Option (Byte × Byte × Nat × List Byte)) :=
  match im.offsets[uclass]? with
  | none => some none
  | some o => do
    let (partsp, p) ← getbyte (im.tables.drop o)
    let (sets, p) ← getbyte p
    let (fcount, p) ← getserial p
    return some (partsp, sets, fcount, p)

/-- What differs between the languages: the character tables, and whether capitals are looked at
(lang-rus/libprob/lemmatizer.hpp:120-122, 223-224, buildforms.hpp:94-95; the English files lack these lines). -/
structure FuzzyLang where
  tab : CharTab
  caps : Bool

/-- `pspMinCapValue[partsp]`, lang-rus/chartype.cpp:206-212: an array of 64 elements. -/
def fuzzyMinCap (partsp : Nat) : Option Nat := if partsp < 64 then some (pspMinCap partsp) else none

/-- `strncpy( , p, n )`: what is written. -/
def strncpyOf (p : List Byte) (n : Nat) : Option (List Byte) :=
  let t := (p.take n).takeWhile (· ≠ 0)
  if p.length < n ∧ t.length = p.length then none else some (t ++ List.replicate (n - t.length) 0)

/-- lemmatizer.hpp:218-224, buildforms.hpp:87-95: the form in `szform` (an array of 64 bytes with the content `junk`,
not initialized), of which `ccform` bytes are used; and the new content of `szform`. -/
def fuzzyForm (L : FuzzyLang) (junk stem flex : List Byte) (partsp : Nat) : Option (List Byte × List Byte) :=
  if 0x40 < stem.length + flex.length then none
  else
    let mem := stem ++ flex ++ junk.drop (stem.length + flex.length)
    if L.caps then do
      let cap ← fuzzyMinCap partsp
      let mem ← capSet L.tab mem (stem.length + flex.length) cap
      return (mem.take (stem.length + flex.length), mem)
    else some (mem.take (stem.length + flex.length), mem)

/-! ### Lemmatize -/

/-- `SStemInfoA`, api.h:138-146; pointers are offsets into the buffers of the client. -/
structure FuzzyStem (ω : Type) where
  plemma : Option Nat
  ccstem : Nat
  nclass : Nat
  pgrams : Option Nat
  ngrams : Nat
  weight : ω
deriving DecidableEq, Repr

/-- The variables of `Lemmatizer`, lemmatizer.hpp:76-81: `astems` as far as it is filled, `pforms`, `pgrams`. -/
structure FuzzyState (ω : Type) where
  stems : List (FuzzyStem ω) := []
  forms : Coder
  grams : Option (List Gram)
  gcur : Nat := 0

/-- `astems[nbuilt - 1].ngrams = pgrams.cur - astems[nbuilt - 1].pgrams`, lemmatizer.hpp:141-142, 166-167. -/
def closeLast {ω : Type} (gcur : Nat) : List (FuzzyStem ω) → List (FuzzyStem ω)
  | [] => []
  | [x] => [{ x with ngrams := gcur - x.pgrams.getD gcur }]
  | x :: y :: l => x :: closeLast gcur (y :: l)

/-- The weight of a model, lemmatizer.hpp:128-134, class/pspfid.cpp.  The number itself, computed in floating point from the
length of the ending, the power of the model, the part of speech, the form number and the class flags, is not modelled: any
totally ordered type and any function.  The bounds of the tables are: `inflexProbTable` has 16 elements (mlfamain.cpp:49),
`pspfidProbTable` has one element for every element of `sizes`, whose `ranges` is null or an array of the given size. -/
structure FuzzyRank (ω : Type) where
  weight : Nat → Nat → Nat → Nat → Nat → ω
  sizes : List (Option Nat)

/-- lemmatizer.hpp:128-134; `none`: a table is read outside its bounds. -/
def FuzzyRank.run {ω : Type} (R : FuzzyRank ω) (index power partsp form sets : Nat) : Option ω := do
  if 16 ≤ index then none
  else
    match ← R.sizes[partsp]? with
    | none => return R.weight index power partsp form sets
    | some n => if n ≤ form then none else return R.weight index power partsp form sets

/-- The sizes of lang-rus/libprob/class/pspfid.cpp:4-157. -/
def rusRankSizes : List (Option Nat) :=
  (List.range 47).map fun i =>
    if i = 1 then some 0xea else if i = 7 ∨ i = 0x0d ∨ i = 0x10 ∨ i = 0x26 ∨ i = 0x27 then some 0x11
    else if i = 0x19 then some 0xf9 else if i = 0x28 then some 0x10 else if i = 0x29 then some 0x0b
    else if i = 0x2a then some 0x1f else if i = 0x2c ∨ i = 0x2d ∨ i = 0x2e then some 7 else none

/-- The sizes of lang-eng/libprob/class/pspfid.cpp:3-31. -/
def engRankSizes : List (Option Nat) := [none, some 4, some 5, some 3, some 3]

/-- lemmatizer.hpp:126-152: a new lemma, if the class or the length of the stem is another one.  `word` is the word in small
letters. -/
def fuzzyOpen {ω : Type} (L : FuzzyLang) (rank : FuzzyRank ω) (junk word : List Byte) (clemma : Nat) (ref : FuzzyRef)
    (partsp sets : Nat) (pclass : List Byte) (s : FuzzyState ω) : Option (Option Int × FuzzyState ω) :=
  if s.stems.getLast?.any fun x => x.nclass == ref.cls && x.ccstem == clemma + 2 then some (none, s)
  else do
    let weight ← rank.run (word.length - clemma - 1) ref.power partsp ref.form sets
    if s.stems.length = 64 then return (some LEMMBUFF_FAILED, s)
    else
      let stem : FuzzyStem ω := ⟨s.forms.buf.map fun _ => s.forms.pos, clemma + 2, ref.cls, s.grams.map fun _ => s.gcur, 0, weight⟩
      let s := { s with stems := closeLast s.gcur s.stems ++ [stem] }
      if s.forms.buf.isSome then do
        let (ccflex, p) ← getbyte (pclass.drop 1)
        if clemma + 2 + ccflex ≥ 0x40 then return (some WORDBUFF_FAILED, s)
        else
          let flex ← strncpyOf p ccflex
          if word.length < clemma + 2 then none
          else
            let (form, _) ← fuzzyForm L junk (word.take (clemma + 2)) flex partsp
            let (ok, c) ← s.forms.appendz form
            if ok then return (none, { s with forms := c }) else return (some LEMMBUFF_FAILED, { s with forms := c })
      else return (none, s)

/-- `Lemmatizer::operator()`, lemmatizer.hpp:104-163. -/
def fuzzyCall {ω : Type} (L : FuzzyLang) (im : FuzzyImages) (rank : FuzzyRank ω) (junk word : List Byte) (scheme dwsets : Nat) :
    FuzzyCall (FuzzyState ω) := fun clemma ref s => do
  match ← fuzzyClass im ref.cls with
  | none => return (some (-1), s)
  | some (partsp, sets, _, pclass) =>
    let good ← (if L.caps && dwsets &&& sfIgnoreCapitals == 0 then (fuzzyMinCap partsp).map (isGood scheme) else some true : Option Bool)
    if !good then return (none, s)
    else
      let (r, s) ← fuzzyOpen L rank junk word clemma ref partsp sets pclass s
      match r with
      | some r => return (some r, s)
      | none =>
        match s.grams with
        | none => return (none, s)
        | some g =>
          if s.gcur < g.length then return (none, { s with grams := some (g.set s.gcur ⟨partsp, ref.form, 0, 0⟩), gcur := s.gcur + 1 })
          else return (some GRAMBUFF_FAILED, s)

/-- `operator int`, lemmatizer.hpp:164-194; `sort` is `std::sort` with the comparison of line 188-189. -/
def fuzzyFinish {ω : Type} (sort : List (FuzzyStem ω) → List (FuzzyStem ω)) (pstems : Option (List (FuzzyStem ω)))
    (s : FuzzyState ω) : Int × Option (List (FuzzyStem ω)) × FuzzyState ω :=
  let s := { s with stems := closeLast s.gcur s.stems }
  match pstems with
  | none => (s.stems.length, none, s)
  | some out =>
    if s.stems.length > out.length then (LEMMBUFF_FAILED, some out, s)
    else (s.stems.length, some (sort s.stems ++ out.drop s.stems.length), s)

/-- `ToCanonic`, mlfamain.cpp:245-270, for a word that is not null and of known length. -/
def fuzzyCanonic (L : FuzzyLang) (w : List Byte) : Option (Option (List Byte × Nat)) :=
  if w.length = 0 then some (some ([], 0)) else capGet L.tab 256 w

/-- `CMlfaMb::Lemmatize`, mlfamain.cpp:181-214; `before` is the memory before the array `locase`, backwards. -/
def fuzzyLemmatize {ω : Type} (L : FuzzyLang) (im : FuzzyImages) (rank : FuzzyRank ω) (sort : List (FuzzyStem ω) → List (FuzzyStem ω))
    (before junk : List Byte) (w : List Byte) (pstems : Option (List (FuzzyStem ω))) (pforms : Option (List Byte))
    (pgrams : Option (List Gram)) (dwsets : Nat) : Option (Int × Option (List (FuzzyStem ω)) × FuzzyState ω) := do
  let s0 : FuzzyState ω := { forms := ⟨pforms, 0⟩, grams := pgrams }
  match ← fuzzyCanonic L w with
  | none => return (WORDBUFF_FAILED, pstems, s0)
  | some (locase, scheme) =>
    if scheme = 0 then return (0, pstems, s0)
    else if scheme % 256 = 0xff && dwsets &&& sfIgnoreCapitals = 0 then return (0, pstems, s0)
    else
      let (r, s) ← patScan (fuzzyCall L im rank junk locase (scheme % 65536) dwsets) im.reverse (locase.reverse ++ before)
        (scheme >>> 16) s0
      match r with
      | some e => return (e, pstems, s)
      | none => return fuzzyFinish sort pstems s

/-! ### BuildForm, GetWdInfo, GetModels -/

/-- buildforms.hpp:73-75: pass over the endings of smaller form numbers. -/
def skipForms (idform : Nat) : Nat → List Byte → Option (Nat × List Byte)
  | 0, p => some (0, p)
  | n + 1, p => do
    let (id, q) ← getbyte p
    if id < idform then
      let (cc, q) ← getbyte q
      skipForms idform n (q.drop cc)
    else return (n + 1, p)

/-- buildforms.hpp:77-99: the endings of the form number. -/
def fuzzyFormLoop (L : FuzzyLang) (stem : List Byte) (partsp idform : Nat) :
    Nat → List Byte → List Byte → Coder → Int → Option (Int × Coder)
  | 0, _, _, c, nb => some (nb, c)
  | n + 1, p, junk, c, nb => do
    let (id, p) ← getbyte p
    if id ≠ idform then return (nb, c)
    else
      let (cc, p) ← getbyte p
      if stem.length + cc > 0x40 then return (WORDBUFF_FAILED, c)
      else
        let flex ← strncpyOf p cc
        let (form, junk) ← fuzzyForm L junk stem flex partsp
        let (ok, c) ← c.appendz form
        if ok then fuzzyFormLoop L stem partsp idform n (p.drop cc) junk c (nb + 1) else return (LEMMBUFF_FAILED, c)

/-- `CMlfaMb::BuildForm`, mlfamain.cpp:216-243, with `Buildform::operator()`, buildforms.hpp:61-101; the stem is not null. -/
def fuzzyBuildForm (L : FuzzyLang) (im : FuzzyImages) (junk : List Byte) (output : Option (List Byte)) (w : List Byte)
    (nclass idform : Nat) : Option (Int × Option (List Byte)) := do
  let cw ← fuzzyCanonic L w
  match output with
  | none => return (ARGUMENT_FAILED, none)
  | some buf =>
    if buf.length = 0 ∨ nclass ≥ im.offsets.length then return (ARGUMENT_FAILED, some buf)
    else
      match cw with
      | none => return (WORDBUFF_FAILED, some buf)
      | some (locase, scheme) =>
        if scheme = 0 then return (0, some buf)
        else
          match ← fuzzyClass im nclass with
          | none => return (ARGUMENT_FAILED, some buf)
          | some (partsp, _, fcount, p) =>
            let (n, p) ← skipForms idform fcount p
            let (r, c) ← fuzzyFormLoop L (locase.take (scheme >>> 16)) partsp idform n p junk ⟨some buf, 0⟩ 0
            return (r, c.buf)

/-- `CMlfaMb::GetWdInfo`, mlfamain.cpp:109-123 (the pointer is not null). -/
def fuzzyWdInfo (im : FuzzyImages) (uclass : Nat) : Option (Int × Option Byte) :=
  match im.offsets[uclass]? with
  | none => some (ARGUMENT_FAILED, none)
  | some o => do
    let (b, _) ← getbyte (im.tables.drop o)
    return (1, some b)

/-- mlfamain.cpp:144-151: pass over the endings. -/
def skipFlexes : Nat → List Byte → Option (List Byte)
  | 0, p => some p
  | n + 1, p => do
    let (_, p) ← getbyte p
    let (cc, p) ← getbyte p
    skipFlexes n (p.drop cc)

/-- mlfamain.cpp:155-173: the samples, each with a zero, as long as they fit; `pos` is `models`. -/
def modelsLoop : Nat → List Byte → List Byte → Nat → Int → Option (Int × List Byte)
  | 0, _, buf, _, n => some (n, buf)
  | k + 1, p, buf, pos, n => do
    let (_, p) ← getbyte p
    let (_, p) ← getbyte p
    let (_, p) ← getserial p
    let (size, p) ← getserial p
    if p.length < size then none
    else if size ≥ buf.length - pos then return (if n = 0 then LEMMBUFF_FAILED else n, buf)
    else
      let buf ← pokes buf pos (p.take size ++ [0])
      modelsLoop k (p.drop size) buf (pos + size + 1) (n + 1)

/-- `CMlfaMb::GetModels`, mlfamain.cpp:125-179. -/
def fuzzyGetModels (im : FuzzyImages) (models : Option (List Byte)) (uclass : Nat) : Option (Int × Option (List Byte)) := do
  match models with
  | none => return (ARGUMENT_FAILED, none)
  | some buf =>
    if buf.length = 0 then return (ARGUMENT_FAILED, some buf)
    else
      match ← fuzzyClass im uclass with
      | none => return (ARGUMENT_FAILED, some buf)
      | some (_, _, fcount, p) =>
        let p ← skipFlexes fcount p
        let (mcount, p) ← getserial p
        let (n, buf) ← modelsLoop mcount p buf 0 0
        return (n, some buf)

end Libmorph

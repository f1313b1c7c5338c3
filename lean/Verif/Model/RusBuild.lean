import Verif.Model.RusTables
import Verif.Model.ClassTable
import Verif.Model.Stems
/-
The Russian dictionary compiler after the text of an article has been resolved:
lang-rus/libdict/tools/buildic/makerus.cpp, lresolve.h, lresolve.cpp.
-/
namespace Libmorph

/-- `lexemeinfo` as `ResolveClassInfo` (lresolve.cpp:319-477) leaves it, with the lexeme id that
tools/buildmorph.h:209-224 adds: stem, word information, compact ending table (for a preposition the
scale of cases, lresolve.cpp:361-362), alternation table, suffix, id.  The first-letter bounds are
computed below (`rusBounds`). -/
structure RusArticle where
  stem : List Byte
  wdinfo : Nat
  tfoffs : Nat
  mtoffs : Nat
  post : List Byte
  id : Nat
deriving DecidableEq, Repr

/-- `lexeme.chrmin`, `lexeme.chrmax`: lresolve.cpp:358-365 (no endings), 430 (from the endings), 438-440
(from the alternants). -/
def rusBounds (ftab mtab : List Byte) (a : RusArticle) : Option (Nat × Nat) :=
  if a.tfoffs = 0 ∨ a.wdinfo &&& 0x3f ≥ 48 then some (0, 0)
  else do
    let (lo, hi) ← minMaxChar ftab maxNest a.tfoffs
    if a.mtoffs = 0 then return (lo, hi) else mixBounds (mtab.drop a.mtoffs) lo hi

/-- `morphclass`, lresolve.h:38-54, and `steminfo`, lang-rus/libdict/mlmadefs.h:138-142. -/
structure RusStem where
  wdinfo : Nat
  tfoffs : Nat
  mtoffs : Nat
deriving DecidableEq, Repr

/-- `morphclass::GetBufLen`, lresolve.h:57-62. -/
def RusStem.bufLen (c : RusStem) : Nat := 2 + (if c.tfoffs ≠ 0 then 2 else 0) + (if c.mtoffs ≠ 0 then 2 else 0)

/-- lresolve.h:66-67: the word as written. -/
def RusStem.stored (c : RusStem) : Nat :=
  c.wdinfo ||| (if c.tfoffs ≠ 0 then 0x2000 else 0) ||| (if c.mtoffs ≠ 0 then 0x4000 else 0)

/-- `morphclass::Serialize`, lresolve.h:63-74. -/
def RusStem.ser (c : RusStem) : List Byte :=
  putword16 c.stored ++ (if c.tfoffs ≠ 0 then putword16 c.tfoffs else [])
    ++ (if c.mtoffs ≠ 0 then putword16 c.mtoffs else [])

/-- The tables of `ResolveRus` (makerus.cpp:90-99) and the entries filed so far.  Simplification: the
map `iplain` is a list in order of registration. -/
structure RusState where
  plain : List Byte
  iplain : List (Nat × Nat) := []
  classes : ClassTable RusStem := {}
  entries : List (List Byte × Entry) := []

/-- makerus.cpp:359-364: "*inflex by Keva*". -/
def plainMagic : List Byte := [42, 105, 110, 102, 108, 101, 120, 32, 98, 121, 32, 75, 101, 118, 97, 42]

/-- makerus.cpp:175: `resize( (size + 0x0f) & ~0x0f )`. -/
def pad16 (l : List Byte) : List Byte := l ++ List.replicate ((l.length + 15) / 16 * 16 - l.length) 0

/-- `ResolveRus::MapTables`, makerus.cpp:159-184: the reference to a compact table is replaced by one to
its plain image, which is made on first use; the new reference is 16 bits wide. -/
def RusState.mapTables (ftab : List Byte) (st : RusState) (c : RusStem) : Option (RusState × RusStem) :=
  if c.tfoffs ≠ 0 ∧ c.wdinfo ≠ 51 then
    match st.iplain.find? (fun p => p.1 = c.tfoffs) with
    | some p => some (st, { c with tfoffs := (p.2 >>> 4) % 65536 })
    | none => do
      let table ← plainTable ftab c.tfoffs
      return ({ st with plain := pad16 (st.plain ++ table), iplain := st.iplain ++ [(c.tfoffs, st.plain.length)] },
        { c with tfoffs := (st.plain.length >>> 4) % 65536 })
  else some (st, c)

/-- `ResolveRus::MapLexStem`, makerus.cpp:185-195, and tools/buildmorph.h:219-229 (the entry is filed
under the stem, see `fileAll`). -/
def RusState.resolve (ftab mtab : List Byte) (st : RusState) (a : RusArticle) : Option RusState := do
  let (lo, hi) ← rusBounds ftab mtab a
  let (st, c) ← st.mapTables ftab ⟨a.wdinfo, a.tfoffs, a.mtoffs⟩
  let (classes, o) ← st.classes.addClass RusStem.bufLen c
  return { st with classes := classes, entries := st.entries ++ [(a.stem, ⟨lo, hi, a.id, o, a.post⟩)] }

/-- makerus.cpp:318-320 and tools/buildmorph.h:110-134, 175-231: all the articles; `none`: the compiler
fails or its behaviour is undefined. -/
def rusBuild (ftab mtab : List Byte) (as : List RusArticle) : Option RusState :=
  as.foldlM (RusState.resolve ftab mtab) { plain := plainMagic }

/-- The images the run time is linked with, lang-rus/libdict/mlmadefs.h:45-51. -/
structure RusImages where
  stemtree : List Byte
  flexTree : List Byte
  mxTables : List Byte
  classmap : List Byte
  lidstree : List Byte

/-- tools/buildmorph.h:137-172 and makerus.cpp:373-401: write the images. -/
def RusState.images (mtab : List Byte) (st : RusState) : RusImages :=
  ⟨stemImage (fileAll st.entries), st.plain, mtab, st.classes.image RusStem.ser, lidImage (lidTree (fileAll st.entries))⟩

end Libmorph

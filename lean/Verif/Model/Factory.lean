import Verif.Model.EngRun
/-
The functions that hand out API objects: lang-rus/libdict/mlmamain.cpp:385-481,
lang-rus/libprob/mlfamain.cpp:272-364, lang-eng/libdict/mlmamain.cpp:362-407,
lang-eng/libprob/mlfamain.cpp:277-328.
-/
namespace Libmorph

/-- The API objects: one per code page, and the wide-character one (mlmamain.cpp:105-111). -/
inductive ApiInst
  | cp1251 | koi8 | cp866 | iso | mac | utf8 | wide
deriving DecidableEq, Repr

/-- The bytes of an ASCII string literal. -/
def asciiBytes (s : String) : List Byte := s.toList.map Char.toNat

/-- `codepageList`, lang-rus/libdict/mlmamain.cpp:385-415; the same names in lang-rus/libprob/mlfamain.cpp:272-303. -/
def codepageList : List (ApiInst × String) :=
  [(.cp1251, "Windows-1251"), (.cp1251, "Windows"), (.cp1251, "1251"), (.cp1251, "Win-1251"), (.cp1251, "Win"),
   (.cp1251, "Windows 1251"), (.cp1251, "Win 1251"), (.cp1251, "ansi"), (.koi8, "koi-8"), (.koi8, "koi8"),
   (.koi8, "20866"), (.cp866, "dos"), (.cp866, "oem"), (.cp866, "866"), (.iso, "28595"), (.iso, "iso-88595"),
   (.iso, "iso-8859-5"), (.mac, "10007"), (.mac, "mac"), (.utf8, "65001"), (.utf8, "utf-8"), (.utf8, "utf8"),
   (.wide, "utf-16"), (.wide, "utf16")]

/-- `tolower` in the "C" locale. -/
def asciiLower (c : Byte) : Byte := if 65 ≤ c ∧ c ≤ 90 then c + 32 else c

/-- `strcasecmp( name, mem ) == 0`, where `name` is a literal (terminated by zero) and `mem` is memory;
`none`: the comparison runs off the memory. -/
def strcaseEq : List Byte → List Byte → Option Bool
  | _, [] => none
  | [], m :: _ => some (m = 0)
  | c :: cs, m :: mem => if asciiLower c = asciiLower m then strcaseEq cs mem else some false

/-- `LIBMORPH_API_4_MAGIC`, `LIBFUZZY_API_4_MAGIC`: api.h:332-333. -/
abbrev libmorphMagic : String := "libmorph.api.v4"
abbrev libfuzzyMagic : String := "libfuzzy.api.v4"

/-- `sizeof(LIBMORPH_API_4_MAGIC)`: the terminating zero counts. -/
abbrev magicSize : Nat := 16

/-- What a factory function does to the caller's pointer variable. -/
inductive PtrWrite
  | untouched
  | null
  | inst (i : ApiInst)
deriving DecidableEq, Repr

/-- `EINVAL`. -/
abbrev EINVAL : Int := 22

/-- The loop over `codepageList` (lang-rus/libdict/mlmamain.cpp:448-454, 476-478): the first entry whose name
equals the string at `mem`. -/
def findPage (mem : List Byte) : List (ApiInst × String) → Option (Option ApiInst)
  | [] => some none
  | p :: ps => do
    let eq ← strcaseEq (asciiBytes p.2) mem
    if eq then return some p.1 else findPage mem ps

/-- `apiKey == nullptr || memcmp( apiKey, MAGIC ":", sizeof(MAGIC) ) != 0`: `none` when the key is refused,
otherwise the memory after the prefix. -/
def afterMagic (magic : String) (key : Option (List Byte)) : Option (Option (List Byte)) :=
  match key with
  | none => some none
  | some mem => do
    let r ← memcmp mem (asciiBytes (magic ++ ":")) magicSize
    if r ≠ .eq then return none else return some (mem.drop magicSize)

/-- `mlmaruGetAPI`, lang-rus/libdict/mlmamain.cpp:467-481 (`magic` = `libmorphMagic`), and `mlfaruGetAPI`,
lang-rus/libprob/mlfamain.cpp:348-364 (`libfuzzyMagic`).  `ptr`: `ppvAPI` is not null. -/
def rusGetAPI (magic : String) (key : Option (List Byte)) (ptr : Bool) : Option (Int × PtrWrite) :=
  if !ptr then some (EINVAL, .untouched)
  else do
    match ← afterMagic magic key with
    | none => return (EINVAL, .untouched)
    | some mem =>
      match ← findPage mem codepageList with
      | some i => return (0, .inst i)
      | none => return (EINVAL, .null)

/-- `mlmaruLoadCpAPI`, lang-rus/libdict/mlmamain.cpp:441-457. -/
def rusLoadCp (ptr : Bool) (codepage : Option (List Byte)) : Option (Int × PtrWrite) :=
  match codepage with
  | none => some (EINVAL, .untouched)
  | some mem =>
    if !ptr then some (EINVAL, .untouched)
    else do
      let c ← mem.head?
      if c = 0 then return (EINVAL, .untouched)
      match ← findPage mem codepageList with
      | some .wide => return (EINVAL, .untouched)
      | some i => return (0, .inst i)
      | none => return (EINVAL, .null)

/-- `mlfaruLoadCpAPI`, lang-rus/libprob/mlfamain.cpp:326-338: no check for the wide-character object. -/
def fuzzyRusLoadCp (ptr : Bool) (codepage : Option (List Byte)) : Option (Int × PtrWrite) :=
  match codepage with
  | none => some (EINVAL, .untouched)
  | some mem =>
    if !ptr then some (EINVAL, .untouched)
    else do
      let c ← mem.head?
      if c = 0 then return (EINVAL, .untouched)
      match ← findPage mem codepageList with
      | some i => return (0, .inst i)
      | none => return (EINVAL, .null)

/-- `mlmaenGetAPI`, lang-eng/libdict/mlmamain.cpp:391-407 (`libmorphMagic`), and `mlfaenGetAPI`,
lang-eng/libprob/mlfamain.cpp:311-328 (`libfuzzyMagic`): every name but the two is code page 1251. -/
def engGetAPI (magic : String) (key : Option (List Byte)) (ptr : Bool) : Option (Int × PtrWrite) :=
  if !ptr then some (EINVAL, .untouched)
  else do
    match ← afterMagic magic key with
    | none => return (EINVAL, .untouched)
    | some mem =>
      let a ← strcaseEq (asciiBytes "utf-16") mem
      if a then return (0, .inst .wide)
      let b ← strcaseEq (asciiBytes "utf16") mem
      if b then return (0, .inst .wide) else return (0, .inst .cp1251)

end Libmorph

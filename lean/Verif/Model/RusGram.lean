import Verif.Model.Bytes
/-
Russian grammatical descriptions: lang-rus/libdict/grammap.h, lang-rus/libdict/mlmadefs.h, rus.h.

A description is the 16-bit word `grinfo` and the byte `bflags` of an element of an ending table.
All arithmetic that the code does in `byte_t`/`uint16_t` is reduced where the code converts.
-/
namespace Libmorph

/-- rus.h:72-73. -/
abbrev afAnimated : Nat := 0x01
abbrev afNotAlive : Nat := 0x02
/-- rus.h:79-88. -/
abbrev gfRetForms : Nat := 0x8000
abbrev gfFormMask : Nat := 0x7000
abbrev gfMultiple : Nat := 0x0800
abbrev gfGendMask : Nat := 0x0600
abbrev gfShortOne : Nat := 0x0100
abbrev gfCompared : Nat := 0x0080
abbrev gfVerbForm : Nat := 0x0060
abbrev gfAdverb : Nat := 0x0040
abbrev gfVerbFace : Nat := 0x0018
abbrev gfVerbTime : Nat := 0x0007
/-- rus.h:90-103. -/
abbrev vtInfinitiv : Nat := 1
abbrev vtImperativ : Nat := 2
abbrev vtFuture : Nat := 3
abbrev vtPresent : Nat := 4
abbrev vtPast : Nat := 5
abbrev vbFirstFace : Nat := 0x0008
abbrev vfVerbActive : Nat := 0x0020
abbrev vfVerbPassiv : Nat := 0x0040
abbrev vfVerbDoing : Nat := 0x0060
/-- rus.h:107-108. -/
abbrev wfMultiple : Nat := 0x0040
/-- rus.h:42. -/
abbrev nfAdjVerbs : Nat := 0x0100

/-- `flexinfo`, xmorph/typedefs.h:91-100. -/
structure FlexInfo where
  gramm : Nat
  flags : Nat
deriving DecidableEq, Repr

/-- `IsVerb`, lang-rus/libdict/mlmadefs.h:119-122. -/
def isVerb (wdinfo : Nat) : Bool := wdinfo &&& 0x3f ≤ 6

/-- `IsAdjective`, mlmadefs.h:124-129. -/
def isAdjective (wdinfo : Nat) : Bool :=
  let w := wdinfo &&& 0x3f
  (25 ≤ w && w ≤ 28) || w == 34 || w == 36 || w == 42

/-- `IsParticiple`, mlmadefs.h:131-134. -/
def isParticiple (gr : Nat) : Bool := gr &&& gfVerbForm == vfVerbActive || gr &&& gfVerbForm == vfVerbPassiv

/-- `mapCaseInfo`, grammap.h:45-52; the animacy flags are the third byte. -/
def mapCaseInfo (info : Nat) : Nat :=
  let idcase := (info &&& gfFormMask) >>> 12
  if idcase > 3 then idcase + 1
  else if idcase < 3 then idcase
  else if info &&& (afNotAlive <<< 16) ≠ 0 then 3 else 4

/-- `mapGenderOf`, grammap.h:58-61; the subtraction is unsigned, the result a byte. -/
def mapGenderOf (info : Nat) : Nat :=
  if info &&& gfMultiple ≠ 0 then 3 else (((info &&& gfGendMask) >>> 9) + 255) % 256

/-- `mapGendInfo`, grammap.h:69-72. -/
def mapGendInfo (info : Nat) : Nat :=
  (mapGenderOf info * 8 + (if info &&& gfShortOne ≠ 0 then 7 else mapCaseInfo info)) % 256

/-- `MapDefsInfo`, grammap.h:78-82. -/
def mapDefsInfo (info : Nat) : Nat :=
  (if info &&& gfAdverb ≠ 0 then 65
   else if info &&& gfCompared ≠ 0 then 64
   else (if info &&& gfRetForms ≠ 0 then 32 else 0) + mapGendInfo info) % 256

/-- `MapNounInfo`, grammap.h:88-91. -/
def mapNounInfo (info : Nat) : Nat := (if info &&& gfMultiple ≠ 0 then 10 else 0) + mapCaseInfo info

/-- `mapVerbTant`, grammap.h:97-100. -/
def mapVerbTant (info : Nat) : Nat :=
  (if info &&& gfRetForms ≠ 0 then 2 else 0) + (if info &&& gfMultiple ≠ 0 then 1 else 0)

/-- `mapPersonal`, grammap.h:106-109; the person minus one is a byte. -/
def mapPersonal (info : Nat) : Nat :=
  ((((info &&& gfVerbFace) >>> 3) + 255) % 256 * 4 + mapVerbTant info) % 256

/-- `mapActvPart`, grammap.h:114-117. -/
def mapActvPart (info : Nat) : Nat := ((if info &&& gfRetForms ≠ 0 then 32 else 0) + mapGendInfo info) % 256

/-- `mapAllParts`, grammap.h:123-128. -/
def mapAllParts (info : Nat) : Nat :=
  (if info &&& gfVerbForm = vfVerbActive then mapActvPart info
   else if info &&& gfVerbForm = vfVerbPassiv then 64 + mapGendInfo info
   else 96 + (if info &&& gfRetForms ≠ 0 then 1 else 0)) % 256

/-- `MapVerbInfo`, grammap.h:130-159. -/
def mapVerbInfo (info : Nat) : Nat :=
  match info &&& gfVerbTime with
  | 1 => if info &&& gfRetForms ≠ 0 then 1 else 0
  | 2 => (2 + mapVerbTant info) % 256
  | 3 => (6 + mapPersonal info) % 256
  | 4 => if info &&& gfVerbForm = 0 then (18 + mapPersonal info) % 256 else (30 + mapAllParts info) % 256
  | 5 =>
    if info &&& gfVerbForm = 0 then (128 + (if info &&& gfRetForms ≠ 0 then 4 else 0) + mapGenderOf info) % 256
    else (136 + mapAllParts info) % 256
  | _ => 255

/-- `MapWordInfo`, grammap.h:161-169. -/
def mapWordInfo (wdinfo grinfo bflags : Nat) : Nat :=
  let dwinfo := (bflags <<< 16) ||| grinfo
  if isVerb wdinfo then mapVerbInfo dwinfo
  else if isAdjective wdinfo then mapDefsInfo dwinfo
  else mapNounInfo dwinfo

/-- `{ uint16_t(-1), uint8_t(-1) }`. -/
def noInfo : FlexInfo := ⟨0xffff, 0xff⟩

/-- `getCaseInfo`, grammap.h:171-184. -/
def getCaseInfo (idform grbase : Nat) : FlexInfo :=
  if idform ≥ 5 then ⟨(grbase ||| ((idform - 1) <<< 12)) % 65536, afAnimated ||| afNotAlive⟩
  else if idform ≤ 2 then ⟨(grbase ||| (idform <<< 12)) % 65536, afAnimated ||| afNotAlive⟩
  else ⟨(grbase ||| (3 <<< 12)) % 65536, if idform = 3 then afNotAlive else afAnimated⟩

/-- `getGendInfo`, grammap.h:186-199. -/
def getGendInfo (idform grbase : Nat) : FlexInfo :=
  let grbase := (grbase ||| (if idform ≥ 24 then gfMultiple else ((idform / 8) + 1) <<< 9)) % 65536
  if idform % 8 = 7 then ⟨(grbase ||| gfShortOne) % 65536, afAnimated ||| afNotAlive⟩
  else if idform < 32 then getCaseInfo (idform % 8) grbase
  else noInfo

/-- `getGenderOf`, grammap.h:201-204. -/
def getGenderOf (form : Nat) : Nat := if form = 3 then gfMultiple else ((form + 1) <<< 9) % 65536

/-- `getVerbTant`, grammap.h:206-210. -/
def getVerbTant (form : Nat) : Nat :=
  (if form ≥ 2 then gfRetForms else 0) ||| (if form % 2 = 1 then gfMultiple else 0)

/-- `getPersonal`, grammap.h:212-217. -/
def getPersonal (idform tenses : Nat) : FlexInfo :=
  ⟨(tenses ||| ((idform / 4 + 1) <<< 3) ||| getVerbTant (idform % 4)) % 65536, afAnimated + afNotAlive⟩

/-- `getAllParts`, grammap.h:219-229. -/
def getAllParts (idform tenses : Nat) : FlexInfo :=
  if idform ≥ 96 then
    ⟨(tenses ||| vfVerbDoing ||| (if idform % 2 = 1 then gfRetForms else 0)) % 65536, afAnimated + afNotAlive⟩
  else if idform ≥ 64 then getGendInfo (idform - 64) (tenses ||| vfVerbPassiv)
  else getGendInfo (idform % 32) (tenses ||| vfVerbActive ||| (if idform ≥ 32 then gfRetForms else 0))

/-- `GetDefsInfo`, grammap.h:231-241. -/
def getDefsInfo (idform : Nat) : FlexInfo :=
  if idform = 65 then ⟨gfAdverb, afAnimated ||| afNotAlive⟩
  else if idform = 64 then ⟨gfCompared, afAnimated ||| afNotAlive⟩
  else getGendInfo (idform % 32) (if idform ≥ 32 then gfRetForms else 0)

/-- `GetNounInfo`, grammap.h:243-250. -/
def getNounInfo (idform : Nat) : FlexInfo :=
  if idform ≤ 17 then getCaseInfo (idform % 10) (if idform ≥ 10 then gfMultiple else 0) else noInfo

/-- `GetVerbInfo`, grammap.h:252-286. -/
def getVerbInfo (idform : Nat) : FlexInfo :=
  if idform < 2 then ⟨vtInfinitiv ||| (if idform = 1 then gfRetForms else 0), afAnimated + afNotAlive⟩
  else if idform < 6 then ⟨vtImperativ ||| getVerbTant (idform - 2), afAnimated + afNotAlive⟩
  else if idform < 18 then getPersonal (idform - 6) vtFuture
  else if idform < 30 then getPersonal (idform - 18) vtPresent
  else if idform < 128 then getAllParts (idform - 30) vtPresent
  else if idform < 136 then
    ⟨vtPast ||| getGenderOf (idform % 4) ||| (if idform ≥ 132 then gfRetForms else 0), afAnimated ||| afNotAlive⟩
  else if idform < 234 then getAllParts (idform - 136) vtPast
  else noInfo

/-- `GetGramInfo`, grammap.h:288-301; the word information arrives as one byte. -/
def getGramInfo (wdinfo idform : Nat) : FlexInfo :=
  let wdinfo := wdinfo % 256
  if isVerb wdinfo then getVerbInfo idform
  else if isAdjective wdinfo then getDefsInfo idform
  else if wdinfo &&& wfMultiple ≠ 0 && idform < 10 then noInfo
  else getNounInfo idform

/-! ### The power of alternation a form requires -/

/-- `GetVerbMixPowerType3`, mlmadefs.h:61-66. -/
def verbMixPower3 (gr : Nat) : Nat :=
  let t := gr &&& gfVerbTime
  if t = vtPresent ∨ t = vtFuture then 2 else 1

/-- `GetVerbMixPowerType2`, mlmadefs.h:68-75. -/
def verbMixPower2 (gr : Nat) : Nat :=
  let t := gr &&& gfVerbTime
  let passiv : Bool := gr &&& gfVerbForm = vfVerbPassiv
  if t = vtPast ∧ passiv then 3 else if t ≠ vtPast ∧ t ≠ vtInfinitiv then 2 else 1

/-- `GetVerbMixPowerType1`, mlmadefs.h:77-81. -/
def verbMixPower1 (gr : Nat) : Nat :=
  if gr &&& (gfVerbTime ||| gfVerbForm) = (vtPast ||| vfVerbPassiv) then 3
  else if gr &&& (gfVerbFace ||| gfMultiple) = vbFirstFace then 2 else 1

/-- `GetVerbMixPower`, mlmadefs.h:83-90. -/
def verbMixPower (wdinfo gr : Nat) : Nat :=
  match (wdinfo &&& 0x1800) >>> 11 with
  | 0 => verbMixPower1 gr
  | 1 => verbMixPower2 gr
  | 2 => verbMixPower3 gr
  | _ => 1

/-- `MascNotAnimMixPower`, mlmadefs.h:92-93. -/
def mascNotAnimPower (gr : Nat) : Nat :=
  let c := gr &&& (gfFormMask ||| gfMultiple)
  if c = 0 ∨ c = 3 <<< 12 then 1 else 2

/-- `MascAnimateMixPower`, mlmadefs.h:95-96. -/
def mascAnimPower (gr : Nat) : Nat := if gr &&& (gfFormMask ||| gfMultiple) = 0 then 1 else 2

/-- `MascMixedMixPower`, mlmadefs.h:98-100. -/
def mascMixedPower (gr fl : Nat) : Nat := if fl &&& afAnimated ≠ 0 then mascAnimPower gr else mascNotAnimPower gr

/-- `FemnNotAnimMixPower`, mlmadefs.h:102-103. -/
def femnNotAnimPower (gr : Nat) : Nat :=
  if gr &&& (gfFormMask ||| gfMultiple) = (1 <<< 12) ||| gfMultiple then 2 else 1

/-- `FemnAnimateMixPower`, mlmadefs.h:105-107. -/
def femnAnimPower (gr : Nat) : Nat :=
  let c := gr &&& (gfFormMask ||| gfMultiple)
  if c = (1 <<< 12) ||| gfMultiple ∨ c = (3 <<< 12) ||| gfMultiple then 2 else 1

/-- `FemnMixedMixPower`, mlmadefs.h:109-111. -/
def femnMixedPower (gr fl : Nat) : Nat := if fl &&& afAnimated ≠ 0 then femnAnimPower gr else femnNotAnimPower gr

/-- `GetAdjectivMixPower`, mlmadefs.h:113-115. -/
def adjectivPower (gr : Nat) : Nat :=
  if gr = gfCompared then 3 else if gr = (1 <<< 9) ||| gfShortOne then 2 else 1

/-- `mixTypes`, lang-rus/libdict/tools/buildic/makerus.cpp:42-86. -/
def mixTypes : List Nat :=
  [0, 1, 1, 1, 1, 1, 1, 2, 3, 4, 5, 6, 6, 5, 6, 7, 5, 6, 7, 5, 6, 5, 6, 5, 5, 8,
   0, 0, 0, 0, 0, 0, 0, 0, 0, 0, 0, 0, 6, 6, 0, 6,
   0, 0, 0, 0, 0, 0, 0, 0, 0, 0, 0, 0, 0, 0, 0, 0, 0, 0, 0, 0, 0, 0]

/-- `steminfo::GetSwapLevel`, mlmadefs.h:173-187. -/
def swapLevel (wdinfo gr fl : Nat) : Nat :=
  match mixTypes.getD (wdinfo &&& 0x3f) 0 with
  | 1 => verbMixPower wdinfo gr
  | 2 => mascNotAnimPower gr
  | 3 => mascAnimPower gr
  | 4 => mascMixedPower gr fl
  | 5 => femnNotAnimPower gr
  | 6 => femnAnimPower gr
  | 7 => femnMixedPower gr fl
  | 8 => adjectivPower gr
  | _ => 1

/-- `steminfo::FindDictForm`, mlmadefs.h:198-214. -/
def findDictForm (wdinfo : Nat) (g : FlexInfo) (dwsets : Nat) : FlexInfo :=
  if isVerb wdinfo then
    if dwsets &&& nfAdjVerbs ≠ 0 && isParticiple g.gramm then
      ⟨(g.gramm &&& (gfVerbTime ||| gfVerbForm)) ||| (1 <<< 9), afAnimated ||| afNotAlive⟩
    else ⟨vtInfinitiv, afAnimated ||| afNotAlive⟩
  else
    ⟨(if isAdjective wdinfo then 1 <<< 9 else 0) ||| (if wdinfo &&& wfMultiple ≠ 0 then gfMultiple else 0),
      afAnimated ||| afNotAlive⟩

end Libmorph

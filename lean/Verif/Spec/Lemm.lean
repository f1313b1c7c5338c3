import Verif.Spec.Reports
/-
What Lemmatize reports for a sequence of readings, some of which may belong to the same lexeme; common to
the two languages.
-/
namespace Libmorph

/-- A reading as it is reported: its lexeme, the bytes its dictionary forms take in the library's scratch,
the dictionary form printed, the descriptions as found and the description stored for each. -/
structure LemmStep where
  id : Nat
  scratch : Nat
  text : List Byte
  grs : List Gram
  put : Gram → Gram

/-- The readings of one record: the first one, and those that joined it. -/
abbrev LemmGroup := LemmStep × List LemmStep

/-- A reading of the lexeme of the last record joins that record if records are asked for; any other opens
a new one. -/
def joinStep (records : Bool) (gs : List LemmGroup) (p : LemmStep) : List LemmGroup :=
  match gs.getLast? with
  | some g => if records ∧ g.1.id = p.id then gs.dropLast ++ [(g.1, g.2 ++ [p])] else gs ++ [(p, [])]
  | none => [(p, [])]

/-- The records of a sequence of readings. -/
def lemmGroups (records : Bool) (H : List LemmStep) : List LemmGroup := H.foldl (joinStep records) []

/-- The descriptions counted in a record: those of its first reading. -/
def LemmGroup.counted (g : LemmGroup) : List Gram := g.1.grs.map g.1.put

/-- The descriptions that reading `p` adds behind those of the record: the ones whose form number, before
it is replaced by the stored one, is not among the counted ones. -/
def LemmGroup.adds (g : LemmGroup) (p : LemmStep) : List Gram :=
  (p.grs.filter fun r => !(g.counted.any fun x => x.idForm = r.idForm)).map p.put

/-- All that is written for a record. -/
def LemmGroup.written (g : LemmGroup) : List Gram := g.counted ++ g.2.flatMap g.adds

/-- The dictionary forms, zero-terminated, one after another. -/
def groupTexts (gs : List LemmGroup) : List Byte := packed (gs.map fun g => g.1.text)

/-- The descriptions, one after another. -/
def groupGrams (gs : List LemmGroup) : List Gram := gs.flatMap LemmGroup.written

/-- The records. -/
def groupRecords (withForms withGrams : Bool) (fpos gpos : Nat) : List LemmGroup → List Lemm
  | [] => []
  | g :: gs =>
    ⟨g.1.id, fpos, gpos, if withGrams then g.1.grs.length else 0⟩ ::
      groupRecords withForms withGrams (if withForms then fpos + g.1.text.length + 1 else fpos)
        (if withGrams then gpos + g.written.length else gpos) gs

/-- Some reading joined the record of another. -/
def Joined (gs : List LemmGroup) : Prop := ∃ g ∈ gs, g.2 ≠ []

/-- What the buffers must hold at least. -/
structure GroupFits (L : Option (List Lemm)) (B : Option (List Byte)) (G : Option (List Gram))
    (gs : List LemmGroup) : Prop where
  lemms : ∀ l ∈ L, gs.length ≤ l.length
  texts : ∀ b ∈ B, gs ≠ [] → (groupTexts gs).length + 1 ≤ b.length
  scratch : ∀ _ ∈ B, ∀ g ∈ gs, g.1.scratch ≤ 256
  grams : ∀ _ ∈ L, ∀ g ∈ G, (groupGrams gs).length ≤ g.length

/-- What certainly suffices: where a reading joined a record, one record and one description more. -/
structure GroupRoomy (L : Option (List Lemm)) (B : Option (List Byte)) (G : Option (List Gram))
    (gs : List LemmGroup) : Prop extends GroupFits L B G gs where
  lemms' : Joined gs → ∀ l ∈ L, ∀ _ ∈ G, gs.length + 1 ≤ l.length
  grams' : Joined gs → ∀ _ ∈ L, ∀ g ∈ G, (groupGrams gs).length + 1 ≤ g.length

/-- A record buffer after the call (`none`: not supplied): the records, then the old content but for one
record that may have been touched. -/
def HoldRecords (withForms withGrams : Bool) (gs : List LemmGroup) : Option (List Lemm) → Option (List Lemm) → Prop
  | none, m => m = none
  | some l, m => ∃ tl, m = some (groupRecords withForms withGrams 0 0 gs ++ tl) ∧ tl.length = l.length - gs.length ∧
      tl.drop 1 = l.drop (gs.length + 1) ∧ (¬ Joined gs → tl = l.drop gs.length)

/-- The buffers after a successful call. Where a reading joined a record, the record after the last one may
have been touched. -/
structure GroupReported (L : Option (List Lemm)) (B : Option (List Byte)) (G : Option (List Gram))
    (gs : List LemmGroup) (s : LemmState) : Prop where
  lemms : HoldRecords B.isSome G.isSome gs L s.lemms
  texts : s.forms.buf = B.map fun b => if gs = [] then b else groupTexts gs ++ 0 :: b.drop ((groupTexts gs).length + 1)
  grams : s.grams = if L.isSome then G.map fun g => groupGrams gs ++ g.drop (groupGrams gs).length else G

/-- Which buffer a negative code blames. -/
def GroupBlames (L : Option (List Lemm)) (B : Option (List Byte)) (G : Option (List Gram)) (gs : List LemmGroup)
    (r : Int) : Prop :=
  (r = LIDSBUFF_FAILED ∧ ∃ l, L = some l ∧ l.length < gs.length) ∨
  (r = LEMMBUFF_FAILED ∧ ∃ b, B = some b ∧ (b.length < (groupTexts gs).length + 1 ∨ ∃ g ∈ gs, 256 < g.1.scratch)) ∨
  (r = GRAMBUFF_FAILED ∧ ∃ l g, L = some l ∧ G = some g ∧
    (g.length < (groupGrams gs).length ∨ g.length = (groupGrams gs).length ∧ Joined gs))

/-- No reading joins a record while the record buffer is full (the library would write behind it). -/
def JoinSafe (L : Option (List Lemm)) (G : Option (List Gram)) (H : List LemmStep) : Prop :=
  ∀ l ∈ L, ∀ _ ∈ G, ∀ P p Q, H = P ++ p :: Q → ((lemmGroups true P).getLast?).map (fun g => g.1.id) = some p.id →
    (lemmGroups true P).length < l.length

/-- The reading of an English article with an ending: the descriptions found carry the form numbers, for an
uninflected word a single blank one is found and replaced by the word's own description. -/
def Article.step (p : Article × List Byte) : LemmStep where
  id := p.1.id
  scratch := (packed p.1.dictForms).length
  text := p.1.lemma
  grs := if p.1.Inflected then (p.1.idsOf p.2).map fun i => ⟨p.1.pos, i, 0, 0⟩ else [⟨0, 0, 0, 0⟩]
  put := fun g => if p.1.Inflected then g else ⟨p.1.pos + 128 * p.1.demand, 255, g.grInfo, g.bFlags⟩

end Libmorph

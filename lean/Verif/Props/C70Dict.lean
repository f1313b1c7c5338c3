import Verif.Props.C70
import Verif.Props.C46
import Verif.Props.C40
import Verif.Props.C23
/-
C70, applied: the classes the tools derive from the two dictionaries as the compilers write them.
-/
namespace Libmorph
open Libmorph.Spec

/-- Where everything fits the library's own buffer, the condition on it can be left out. -/
theorem FormOutcome.fits {r : Option (Int × Option (List Byte))} {fs : List (List Byte)} {sc : Prop} {B : List Byte} (h : FormOutcome r fs sc B)
    (hs : sc) : FormOutcome r fs True B :=
  ⟨fun h1 _ => h.1 h1 hs, fun h1 _ => h.2.1 h1 hs, fun h1 => h.2.2 (h1.elim (fun h => absurd trivial h) .inr)⟩

/-- The English dictionary answers with the forms of the article. -/
theorem engMorpho_gives {A : List Byte} {as : List Article} (h : EngOk A as) (hi : IdsOk as) (a : Article) (ha : a ∈ as)
    (hone : ∀ b ∈ as, b.id = a.id → b = a) (junk : List Byte) (hj : (lexkey a.id).length + junk.length = 16) (ids : List Nat)
    (hfit : ∀ i ∈ ids, (packed (a.delivered i)).length ≤ 256) :
    (engMorpho (engBuild as).images junk).Gives a.id ids fun i => (a.delivered i).map (printed a.demand) := by
  refine fun i hi' => ⟨fun B hB => ?_, fun f hf => (h.deliveredText ha i f hf).zero⟩
  obtain ⟨b, hb, hid, ho⟩ := buildForm_eq h hi junk a.id i hj ⟨a, ha, rfl⟩ B hB
  have := hone b hb hid
  subst this
  exact ho.fits (hfit i hi')

/-- **C70** the class the English tool gives a lexeme of a compiled dictionary: that of the forms BuildForm gives. -/
theorem C70_english_dictionary {A : List Byte} {as : List Article} (h : EngOk A as) (hi : IdsOk as) (a : Article) (ha : a ∈ as)
    (hone : ∀ b ∈ as, b.id = a.id → b = a) (junk : List Byte) (hj : (lexkey a.id).length + junk.length = 16)
    {low : Byte → Byte} (hl : LowOk low) (req : List Nat) (pairs : List (Nat × Nat)) (psp : Nat)
    (ht : engTaken a.pos = some (req, pairs, psp)) (hfit : ∀ e ∈ pairs, (packed (a.delivered e.2)).length ≤ 256)
    (buffer : List Byte) (hbuf : buffer.length = 0x4000)
    (hroom : ToolRoom buffer (wantedForms low (fun i => (a.delivered i).map (printed a.demand)) pairs)) :
    Derived low (fun i => (a.delivered i).map (printed a.demand)) req pairs psp (fun _ => False)
      (lexClass engTool low (engMorpho (engBuild as).images junk) buffer a.id) := by
  refine C70_english hl _ a.id _ 1 a.pos (C26_part_of_speech h hi a ha (fun b hb hid => by rw [hone b hb hid]) junk hj).1 (by decide) req pairs psp ht
    (engMorpho_gives h hi a ha hone junk hj _ fun i hi' => ?_) buffer hbuf hroom
  obtain ⟨e, he, rfl⟩ := List.mem_map.1 hi'
  exact hfit e he

/-- The Russian dictionary answers with the forms the tables give the article. -/
theorem rusMorpho_gives {A : List Byte} {D : RusDict} {st : RusState} (h : RusOk A D st) (hi : RusIdsOk D st) (a : RusArticle) (ha : a ∈ D.arts)
    (hone : ∀ b ∈ D.arts, b.id = a.id → b = a) (junk : List Byte) (hj : (lexkey a.id).length + junk.length = 16) (G : Nat → List (List Byte))
    (ids : List Nat) (hG : ∀ i ∈ ids, D.BuiltForms a i (G i)) (hfit : ∀ i ∈ ids, (packed (G i)).length ≤ 256) :
    (rusMorpho (st.images D.mtab) junk).Gives a.id ids fun i => (G i).map (rusPrinted a.demand) := by
  refine fun i hi' => ⟨fun B hB => ?_, fun f hf => ?_⟩
  · exact (C46_build_form_one h hi junk i a ha hone hj (G i) (hG i hi') B hB).fits (hfit i hi')
  · obtain ⟨g, hg, rfl⟩ := List.mem_map.1 hf
    exact (rusPrinted_text _ a.demand_le _ (builtForms_text h ha (hG i hi') g hg)).zero

/-- **C70** the class the Russian tool gives a lexeme of a compiled dictionary that is not a verb. -/
theorem C70_russian_dictionary {A : List Byte} {D : RusDict} {st : RusState} (h : RusOk A D st) (hi : RusIdsOk D st) (a : RusArticle) (ha : a ∈ D.arts)
    (hone : ∀ b ∈ D.arts, b.id = a.id → b = a) (junk : List Byte) (hj : (lexkey a.id).length + junk.length = 16)
    {low : Byte → Byte} (hl : LowOk low) (req : List Nat) (pairs : List (Nat × Nat)) (psp : Nat)
    (ht : rusTaken a.pos = some (req, pairs, psp)) (hv : a.pos % 64 ∉ [1, 2, 3, 4, 5, 6]) (G : Nat → List (List Byte))
    (hG : ∀ i, D.BuiltForms a i (G i)) (hfit : ∀ e ∈ pairs, (packed (G e.2)).length ≤ 256)
    (buffer : List Byte) (hbuf : buffer.length = 0x4000)
    (hroom : ToolRoom buffer (wantedForms low (fun i => (G i).map (rusPrinted a.demand)) pairs)) :
    Derived low (fun i => (G i).map (rusPrinted a.demand)) req pairs psp (AccentB psp)
      (lexClass rusTool low (rusMorpho (st.images D.mtab) junk) buffer a.id) := by
  refine C70_russian_not_verbs hl _ a.id _ 1 a.pos (C47_part_of_speech h hi a ha (fun b hb hid => by rw [hone b hb hid]) junk hj) (by decide)
    req pairs psp ht hv (rusMorpho_gives h hi a ha hone junk hj G _ (fun i _ => hG i) fun i hi' => ?_) buffer hbuf hroom
  obtain ⟨e, he, rfl⟩ := List.mem_map.1 hi'
  exact hfit e he

/-- Such forms there are for every article. -/
theorem C70_russian_forms {A : List Byte} {D : RusDict} {st : RusState} (h : RusOk A D st) (a : RusArticle) (ha : a ∈ D.arts) :
    ∃ G : Nat → List (List Byte), ∀ i, D.BuiltForms a i (G i) :=
  ⟨fun i => (builtForms_exists h ha i).choose, fun i => (builtForms_exists h ha i).choose_spec⟩

/-! ### The hypotheses are met -/

/-- "brother|0|s|'s|s' N". -/
def oneNoun : List Article := [⟨[98, 114, 111, 116, 104, 101, 114], [124, 48, 124, 115, 124, 39, 115, 124, 115, 39], 1, [], 300⟩]

theorem oneNoun_ok : EngOk engSampleLetters oneNoun := by
  refine ⟨by decide, by decide, by decide +kernel, by decide, by decide, by decide, by decide, by decide, by decide +kernel, ?_,
    by decide +kernel, by decide, by decide +kernel, by decide +kernel, by decide +kernel⟩
  intro a ha e
  have h : ∀ a ∈ oneNoun, a.endings.length ≤ 64 := by decide +kernel
  exact Nat.le_trans (List.length_filter_le _ _) (h a ha)

theorem oneNoun_ids : IdsOk oneNoun := ⟨by decide, by decide +kernel⟩

/-- Small letters of ASCII. -/
def asciiLow (b : Byte) : Byte := if 65 ≤ b ∧ b ≤ 90 then b + 32 else b

theorem asciiLow_ok : LowOk asciiLow := by intro b; unfold asciiLow; split <;> omega

theorem oneNoun_forms : (wantedForms asciiLow (fun i => ((oneNoun.headD ⟨[], [], 0, [], 0⟩).delivered i).map (printed (oneNoun.headD ⟨[], [], 0, [], 0⟩).demand)) (asIs [0, 1, 2, 3]))
    = [(0, [98, 114, 111, 116, 104, 101, 114]), (1, [98, 114, 111, 116, 104, 101, 114, 115]), (2, [98, 114, 111, 116, 104, 101, 114, 39, 115]),
       (3, [98, 114, 111, 116, 104, 101, 114, 115, 39])] := by decide +kernel

/-- "brother": the endings "", "s", "'s", "s'", the stem ends in "er", the sample is "brother". -/
example : Derived asciiLow (fun i => ((oneNoun.headD ⟨[], [], 0, [], 0⟩).delivered i).map (printed (oneNoun.headD ⟨[], [], 0, [], 0⟩).demand))
    [0, 1, 2, 3] (asIs [0, 1, 2, 3]) 1 (fun _ => False)
    (lexClass engTool asciiLow (engMorpho (engBuild oneNoun).images (List.replicate 14 0)) (List.replicate 0x4000 0) 300) := by
  refine C70_english_dictionary oneNoun_ok oneNoun_ids (oneNoun.headD ⟨[], [], 0, [], 0⟩) (by decide) (by decide) _ (by decide) asciiLow_ok _ _ _
    (by decide) (by decide +kernel) _ List.length_replicate ?_
  rw [oneNoun_forms]
  exact ⟨by rw [List.length_replicate]; decide, by decide⟩

example : ClassIs [(0, [98, 114, 111, 116, 104, 101, 114]), (1, [98, 114, 111, 116, 104, 101, 114, 115]), (2, [98, 114, 111, 116, 104, 101, 114, 39, 115]),
      (3, [98, 114, 111, 116, 104, 101, 114, 115, 39])] [98, 114, 111, 116, 104, 101, 114] [(0, []), (1, [115]), (2, [39, 115]), (3, [115, 39])] :=
  ⟨by decide, by decide, fun s hs => hs (0, _) (by simp)⟩

/-- A dictionary with one lexeme: its part of speech, its forms. -/
def oneLexeme (p : Byte) (F : Nat → List (List Byte)) : Morpho where
  info := fun _ => some (1, some p)
  build := fun B _ i =>
    if F i = [] then some (0, some B)
    else if (packed (F i)).length + 1 ≤ B.length then some ((F i).length, some (packed (F i) ++ 0 :: B.drop ((packed (F i)).length + 1)))
    else some (-1, some B)

theorem oneLexeme_gives (p x : Nat) (F : Nat → List (List Byte)) (ids : List Nat) (h0 : ∀ i ∈ ids, ∀ f ∈ F i, 0 ∉ f) : (oneLexeme p F).Gives x ids F := by
  refine fun i hi => ⟨fun B _ => ⟨fun h _ => by simp [oneLexeme, h], fun h _ hf => by simp [oneLexeme, h, hf], fun h => ?_⟩, h0 i hi⟩
  rcases h with h | ⟨h1, h2⟩
  · exact absurd trivial h
  · exact ⟨B, by simp only [oneLexeme]; rw [if_neg h1, if_neg (by omega)], rfl⟩

/-- "рубль" and "делать", some of the forms (code page 1251). -/
def rublForms : Nat → List (List Byte)
  | 0 => [[240, 243, 225, 235, 252]] | 1 => [[240, 243, 225, 235, 255]] | 2 => [[240, 243, 225, 235, 254]]
  | 5 => [[240, 243, 225, 235, 229, 236]] | 6 => [[240, 243, 225, 235, 229]] | 10 => [[240, 243, 225, 235, 232]]
  | 11 => [[240, 243, 225, 235, 229, 233]] | 12 => [[240, 243, 225, 235, 255, 236]] | 15 => [[240, 243, 225, 235, 255, 236, 232]]
  | 16 => [[240, 243, 225, 235, 255, 245]] | _ => []

/-- The tool's answer: a noun, fourteen endings (the accusatives are added), "бл" at the end of the stem. -/
theorem C70_rubl : lexClass rusTool asciiLow (oneLexeme 8 rublForms) (List.replicate 100 0) 5 =
    .done (some ⟨(7, [(0, [252]), (1, [255]), (2, [254]), (3, [252]), (4, [255]), (5, [229, 236]), (6, [229]), (10, [232]), (11, [229, 233]), (12, [255, 236]),
      (13, [232]), (14, [229, 233]), (15, [255, 236, 232]), (16, [255, 245])]), ⟨225, 235, false⟩, [240, 243, 225, 235, 252]⟩) := by decide +kernel

/-- The hypotheses of `C70_russian_not_verbs` are met by it. -/
example : Derived asciiLow rublForms [0, 1, 2, 5, 6, 10, 11, 12, 15, 16]
    (asIs [0, 1, 2, 5, 6, 10, 11, 12, 15, 16] ++ [(3, 0), (4, 1), (13, 10), (14, 11)]) 7 (AccentB 7)
    (lexClass rusTool asciiLow (oneLexeme 8 rublForms) (List.replicate 0x4000 0) 5) := by
  have hw : ToolRoom (List.replicate 40 0 ++ List.replicate 100 0) (wantedForms asciiLow rublForms
      (asIs [0, 1, 2, 5, 6, 10, 11, 12, 15, 16] ++ [(3, 0), (4, 1), (13, 10), (14, 11)])) := ⟨by decide +kernel, by decide +kernel⟩
  refine C70_russian_not_verbs asciiLow_ok _ 5 _ 1 8 rfl (by decide) _ _ _ (by decide) (by decide) (oneLexeme_gives _ _ _ _ ?_) _ List.length_replicate
    ⟨Nat.le_trans hw.text (by rw [List.length_replicate, List.length_append, List.length_replicate, List.length_replicate]; decide), hw.count⟩
  decide +kernel

/-- A verb, short: the forms that must exist, and the genitive and dative of the participle with the numbers 201 and 202. -/
def slipVerb : Nat → List (List Byte)
  | 201 => [[228, 224, 237, 224]] | 202 => [[228, 224, 237, 243]]
  | i => if i ∈ [0, 2, 3, 18, 19, 22, 23, 26, 27, 128, 129, 130, 131] then [[228, 224, 110 + i]] else []

/-- The slip in the tool's own answer: the ending of 201 twice, that of 202 not at all. -/
theorem C70_slip_seen : ∃ es, lexClass rusTool asciiLow (oneLexeme 1 slipVerb) (List.replicate 300 0) 5 =
      .done (some ⟨(1, es), ⟨228, 224, false⟩, [228, 224, 110]⟩) ∧ es.count (201, [237, 224]) = 2 ∧ ∀ e ∈ es, e.1 ≠ 202 := by
  refine ⟨[(0, [110]), (2, [112]), (3, [113]), (18, [128]), (19, [129]), (22, [132]), (23, [133]), (26, [136]), (27, [137]), (128, [238]),
    (129, [239]), (130, [240]), (131, [241]), (201, [237, 224]), (201, [237, 224])], ?_, by decide, by decide⟩
  decide +kernel

end Libmorph

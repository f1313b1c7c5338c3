import Verif.Props.C74
/-
C75, applied: from the forms of a dictionary lexeme to the fuzzy analyser; an example that goes all the way.
-/
namespace Libmorph
open Libmorph.Spec

/-- **C75** from the dictionary: a lexeme that the tool gives a class (`Derived`, C70) which goes with a class of the description; every form that
was taken, in small letters, is found by the analyser, with its number and the class. -/
theorem C75_derived {low : Byte → Byte} {F : Nat → List (List Byte)} {req : List Nat} {pairs : List (Nat × Nat)} {psp : Nat}
    {accent : List MForm → Prop} {c : LexClass} (h : Derived low F req pairs psp accent (.done (some c))) {out : List FuzzyClass} {i : Nat} {C : FuzzyClass}
    (hi : out[i]? = some C) (hg : GoesWith c C) (fits : FuzzyClass → Bool) (hf : fits C = true) :
    ∃ stem, (∀ e ∈ pairs, ∀ f ∈ F e.2, stem <+: f.map low) ∧
      ∀ e ∈ pairs, ∀ f ∈ F e.2, ∃ x ∈ fuzzyLemmas fits out (f.map low), x.cls = i ∧ (f.map low).take x.ccstem = stem ∧ ∃ r ∈ x.refs, r.form = e.1 := by
  simp only [Derived] at h
  have hn := mt h.1 (by simp)
  obtain ⟨stem, es, s0, s1, b, sample, hcl, hst, -, -, he⟩ := h.2 hn
  simp only [Ran.done.injEq, Option.some.injEq] at he
  subst he
  have hW : ∀ e ∈ pairs, ∀ f ∈ F e.2, (e.1, f.map low) ∈ wantedForms low F pairs :=
    fun e he f hf' => List.mem_flatMap.2 ⟨e, he, List.mem_map.2 ⟨f, hf', rfl⟩⟩
  refine ⟨stem, ?_, ?_⟩
  · intro e he f hf'
    obtain ⟨g, hg', h1⟩ := List.mem_map.1 (hcl.forms.mem_iff.2 (hW e he f hf'))
    rw [← (Prod.mk.inj h1).2]
    exact List.prefix_append _ _
  · intro e he f hf'
    obtain ⟨x, hx, h1, -, h2, h3⟩ := C75_own_words hi hg hcl hst fits hf _ (hW e he f hf')
    exact ⟨x, hx, h1, h2, h3⟩

/-! ### Example: "бой", "строй", "слой", "рубль" -/

/-- A dictionary with the lexemes 1, 3, 4 like "бой" and 5 "рубль" (2, "кий", is banned below). -/
def mixMorpho : Morpho where
  info := fun _ => some (1, some 7)
  build := fun B x i => (oneLexeme 7 fun i => if x = 5 then rublForms i else (boyEnds i).map (boyStems x ++ ·)).build B x i

/-- A sort by descending weight. -/
def byWeight (m : ClassMap) : ClassMap := m.insertionSort fun a b => b.2.modProd ≤ a.2.modProd

theorem byWeight_perm (m : ClassMap) : (byWeight m).Perm m := List.perm_insertionSort _ _

def boyClass : FuzzyClass :=
  ⟨7, true, [(0, [233]), (1, [255]), (2, [254]), (3, [233]), (4, [255]), (5, [229, 236]), (6, [229]), (10, [232]), (11, [229, 226]), (12, [255, 236]),
      (13, [232]), (14, [229, 226]), (15, [255, 236, 232]), (16, [255, 245])],
    [⟨225, 238, 1, [225, 238, 233]⟩, ⟨235, 238, 1, [241, 235, 238, 233]⟩, ⟨240, 238, 1, [241, 242, 240, 238, 233]⟩]⟩

/-- The tool prints the class of three of the four lexemes; "рубль" would go over 95 %. -/
theorem C74_example : makeClasses rusTool asciiLow mixMorpho (List.replicate 100 0) (fun x => x == 3) (fun x => x == 2) byWeight [(1, 5)] =
    .done [boyClass] := by decide +kernel

/-- What it took. -/
def mixTaken : List (LexClass × Bool) :=
  [(⟨(7, boyClass.flexes), ⟨225, 238, true⟩, [225, 238, 233]⟩, false),
   (⟨(7, boyClass.flexes), ⟨240, 238, true⟩, [241, 242, 240, 238, 233]⟩, true),
   (⟨(7, boyClass.flexes), ⟨235, 238, true⟩, [241, 235, 238, 233]⟩, false),
   (⟨(7, [(0, [252]), (1, [255]), (2, [254]), (3, [252]), (4, [255]), (5, [229, 236]), (6, [229]), (10, [232]), (11, [229, 233]), (12, [255, 236]),
      (13, [232]), (14, [229, 233]), (15, [255, 236, 232]), (16, [255, 245])]), ⟨225, 235, false⟩, [240, 243, 225, 235, 252]⟩, false)]

theorem mixTaken_taken : TakenAs rusTool asciiLow mixMorpho (List.replicate 100 0) (fun x => x == 3) (fun x => x == 2) (limitIds [(1, 5)]) mixTaken := by
  have h1 : lexClass rusTool asciiLow mixMorpho (List.replicate 100 0) 1 = .done (some ⟨(7, boyClass.flexes), ⟨225, 238, true⟩, [225, 238, 233]⟩) := by
    decide +kernel
  have h3 : lexClass rusTool asciiLow mixMorpho (List.replicate 100 0) 3 = .done (some ⟨(7, boyClass.flexes), ⟨240, 238, true⟩, [241, 242, 240, 238, 233]⟩) := by
    decide +kernel
  have h4 : lexClass rusTool asciiLow mixMorpho (List.replicate 100 0) 4 = .done (some ⟨(7, boyClass.flexes), ⟨235, 238, true⟩, [241, 235, 238, 233]⟩) := by
    decide +kernel
  have h5 : lexClass rusTool asciiLow mixMorpho (List.replicate 100 0) 5 = .done (some
      ⟨(7, [(0, [252]), (1, [255]), (2, [254]), (3, [252]), (4, [255]), (5, [229, 236]), (6, [229]), (10, [232]), (11, [229, 233]), (12, [255, 236]),
      (13, [232]), (14, [229, 233]), (15, [255, 236, 232]), (16, [255, 245])]), ⟨225, 235, false⟩, [240, 243, 225, 235, 252]⟩) := by
    decide +kernel
  show TakenAs _ _ _ _ _ _ [1, 2, 3, 4, 5] _
  exact .inr (.inr ⟨rfl, _, _, h1, rfl, .inl ⟨rfl, .inr (.inr ⟨rfl, _, _, h3, rfl, .inr (.inr ⟨rfl, _, _, h4, rfl, .inr (.inr ⟨rfl, _, _, h5, rfl, rfl⟩)⟩)⟩)⟩⟩)

theorem mixTaken_accents : ¬ AccentsClash mixTaken := by unfold AccentsClash; decide +kernel

/-- The hypotheses of C74 are met. -/
theorem mix_made : ∃ m m' φ, Made mixTaken byWeight [boyClass] m m' φ := by
  obtain ⟨out, m, m', φ, h1, h2⟩ := C74_made (.inl rfl) mixTaken_taken mixTaken_accents byWeight byWeight_perm
  rw [C74_example] at h1
  cases h1
  exact ⟨m, m', φ, h2⟩

/-- A word that is not in the dictionary, "покрой": one lemma, the stem "покро", as nominative and as accusative, like one lexeme. -/
theorem C75_example : fuzzyLemmas (fun _ => true) [boyClass] [239, 238, 234, 240, 238, 233] = [⟨5, 0, [⟨0, 1, 0⟩, ⟨0, 1, 3⟩]⟩] := by decide +kernel

/-- The hypotheses of `C75_guesses` are met by it: the model is "строй". -/
example : ∃ C q s0 s1 e, [boyClass][0]? = some C ∧ ([239, 238, 234, 240, 238, 233] : List Byte) = q ++ [s0, s1] ++ e ∧ 5 = q.length + 2 ∧ (0, e) ∈ C.flexes ∧
      ∃ like : List (LexClass × Bool), like.Sublist mixTaken ∧ 1 = like.length ∧ like ≠ [] ∧
        ∀ c ∈ like, GoesWith c.1 C ∧ c.1.suffix.s0 = s0 ∧ c.1.suffix.s1 = s1 := by
  obtain ⟨m, m', φ, h⟩ := mix_made
  exact C75_guesses byWeight_perm h (fun _ => true) _ ⟨5, 0, [⟨0, 1, 0⟩, ⟨0, 1, 3⟩]⟩ (by rw [C75_example]; simp) ⟨0, 1, 0⟩ (by simp)

/-- The class of "строй". -/
theorem stroy_class : ClassIs ((boyClass.flexes).map fun e => (e.1, [241, 242, 240, 238] ++ e.2)) [241, 242, 240, 238] boyClass.flexes := by
  refine ⟨List.Perm.refl _, by decide +kernel, fun s hs => ?_⟩
  have h1 := hs (0, [241, 242, 240, 238, 233]) (by decide)
  have h2 := hs (1, [241, 242, 240, 238, 255]) (by decide)
  have h3 : s.length ≤ 4 := by
    by_contra hlt
    have e1 := List.prefix_iff_eq_take.1 h1
    have e2 := List.prefix_iff_eq_take.1 h2
    have hl := h1.length_le
    have : s.length = 5 := by simp at hl; omega
    rw [this] at e1 e2
    rw [e1] at e2
    simp at e2
  exact List.prefix_of_prefix_length_le h1 ⟨[233], rfl⟩ h3

/-- The hypotheses of `C75_own_words` are met. -/
example : ∃ x ∈ fuzzyLemmas (fun _ => true) [boyClass] [241, 242, 240, 238, 255, 236, 232], x.cls = 0 ∧ x.ccstem = 4 ∧ ∃ r ∈ x.refs, r.form = 15 := by
  have hg : GoesWith ⟨(7, boyClass.flexes), ⟨240, 238, true⟩, [241, 242, 240, 238, 233]⟩ boyClass :=
    ⟨rfl, rfl, List.Sublist.refl _, fun _ => rfl, ⟨240, 238, 1, [241, 242, 240, 238, 233]⟩, by decide, rfl, rfl⟩
  obtain ⟨x, hx, h1, h2, -, h3⟩ := C75_own_words (out := [boyClass]) (i := 0) rfl hg stroy_class ⟨[241, 242], rfl⟩ (fun _ => true) rfl
    (15, [241, 242, 240, 238, 255, 236, 232]) (by decide +kernel)
  exact ⟨x, hx, h1, h2, h3⟩

end Libmorph

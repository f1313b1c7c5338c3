import Verif.Lemmas.RusTwo
import Verif.Props.C77
import Verif.Props.C43
import Verif.Props.C44
/-
C83: the answers of a Russian dictionary do not depend on the order of its articles, and a dictionary that grows keeps its words.
-/
namespace Libmorph
open Spec

section
variable {A A' : List Byte} {D D' : RusDict} {st st' : RusState}

/-- **C83** CheckWord answers the same, in whatever order the articles were compiled. -/
theorem C83_check (t : TwoOrders D D') (h : RusOk A D st) (h' : RusOk A' D' st') (w junk : List Byte) (dwsets : Nat)
    (hparts : (wordParts rusTab w).length ≤ 8) : rusCheck (st.images D.mtab) junk w dwsets = rusCheck (st'.images D'.mtab) junk w dwsets :=
  two_check t h h' w junk dwsets hparts

/-- **C83** So does Lemmatize: the same lemmas, with the same texts and descriptions, in the same order. -/
theorem C83_lemmatize (t : TwoOrders D D') (h : RusOk A D st) (h' : RusOk A' D' st') (w junk : List Byte) (dwsets : Nat)
    (hparts : (wordParts rusTab w).length ≤ 8) (L : Option (List Lemm)) (B : Option (List Byte)) (G : Option (List Gram)) :
    rusLemmatize (st.images D.mtab) junk w L B G dwsets = rusLemmatize (st'.images D'.mtab) junk w L B G dwsets :=
  two_lemmatize t h h' w junk dwsets hparts L B G

/-- **C83** So does FindForms. -/
theorem C83_find_forms (t : TwoOrders D D') (h : RusOk A D st) (h' : RusOk A' D' st') (w junk : List Byte) (idform dwsets : Nat)
    (hparts : (wordParts rusTab w).length ≤ 8) (B : Option (List Byte)) :
    rusFindForms (st.images D.mtab) junk B w idform dwsets = rusFindForms (st'.images D'.mtab) junk B w idform dwsets :=
  two_findForms t h h' w junk idform dwsets hparts B

/-- **C83** So does BuildForm, even where several articles have the number. -/
theorem C83_build_form (t : TwoOrders D D') (h : RusOk A D st) (h' : RusOk A' D' st') (hi : RusIdsOk D st) (hi' : RusIdsOk D' st') (junk : List Byte)
    (id idform : Nat) (hid : id < 2 ^ 32) (hj : (lexkey id).length + junk.length = 16) (B : Option (List Byte)) :
    rusBuildForm (st.images D.mtab) junk B id idform = rusBuildForm (st'.images D'.mtab) junk B id idform :=
  two_buildForm t h h' hi hi' junk id idform hid hj B

/-- **C83** So does GetWdInfo. -/
theorem C83_wd_info (t : TwoOrders D D') (h : RusOk A D st) (h' : RusOk A' D' st') (hi : RusIdsOk D st) (hi' : RusIdsOk D' st') (junk : List Byte)
    (id : Nat) (hid : id < 2 ^ 32) (hj : (lexkey id).length + junk.length = 16) :
    rusWdInfo (st.images D.mtab) junk id = rusWdInfo (st'.images D'.mtab) junk id :=
  two_wdInfo t h h' hi hi' junk id hid hj

end

/-- **C83** For articles that clash the order matters: the one lexeme of `tamTwice`, compiled in the other order, is reported with another description. -/
theorem C83_clash_counterexample :
    let answer := fun arts : List RusArticle => (rusBuild [] [0] arts).bind fun st => (rusLemmatize (st.images [0]) [] [242, 224, 236]
      (some (List.replicate 3 ⟨0, 0, 0, 0⟩)) none (some (List.replicate 3 ⟨0, 0, 0, 0⟩)) 0).map
        fun r => (r.1, r.2.lemms.map (·.take 1), r.2.grams.map (·.take 1))
    answer tamTwice = some (1, some [⟨9, 0, 0, 1⟩], some [⟨52, 255, 0, 0⟩]) ∧
    answer tamTwice.reverse = some (1, some [⟨9, 0, 0, 1⟩], some [⟨54, 255, 0, 0⟩]) := by decide +kernel

/-! ### The lines of the sources -/

theorem Spec.Moved.flatMap {α β : Type} {conf : α → α → Prop} {conf' : β → β → Prop} (g : α → List β) {l l' : List α} (h : Moved conf l l')
    (hc : ∀ a ∈ l, ∀ b ∈ l, ¬ conf a b → a = b ∨ ∀ x ∈ g a, ∀ y ∈ g b, ¬ conf' x y) : Moved conf' (l.flatMap g) (l'.flatMap g) := by
  induction h with
  | nil => exact .nil
  | cons a _ ih =>
    simp only [List.flatMap_cons]
    exact append_left _ (ih fun x hx y hy => hc x (by simp [hx]) y (by simp [hy]))
  | swap a b l hn =>
    simp only [List.flatMap_cons]
    rcases hc a (by simp) b (by simp) hn with rfl | k
    · exact refl _
    · exact blocks _ _ _ k
  | trans h1 _ ih1 ih2 => exact .trans (ih1 hc) (ih2 fun x hx y hy => hc x (h1.perm.mem_iff.2 hx) y (h1.perm.mem_iff.2 hy))

section
variable {conv : List Byte → List Byte} {fs : List Byte → Option (List Byte)} {endings alternations : List Byte} {Z : RusSrc} {T : RusTabs}
  {files files' : List (List (List Byte))} {st st' : RusState} {unk unk' : List (List Byte)}

theorem says_map {S : RusSource} (hf : RusFit T S) {lines : List (List Byte)} {os : List (List RusArticle × List (List Byte))}
    (k : List.Forall₂ (fun l (o : List RusArticle × List (List Byte)) => RusLineSays S lidNumber l o.1 o.2) lines os) (hl : ∀ l ∈ lines, LineFits l) :
    (os.map (·.1)).flatten = lines.flatMap fun l => ((rusLine T l).map RusLineResult.arts).getD [] := by
  induction k with
  | nil => rfl
  | @cons line o _ _ k1 _ ih =>
    obtain ⟨r, hr, hu⟩ := C60_line_total hf (hl line (by simp))
    simp only [List.map_cons, List.flatten_cons, List.flatMap_cons, ih fun l hm => hl l (by simp [hm]), hr, Option.map_some, Option.getD_some, ((hu _ _).1 k1).1]

/-- The articles of the lines in two orders. -/
theorem Pipeline.two (h : Pipeline conv fs endings alternations Z T files st unk) (h' : Pipeline conv fs endings alternations Z T files' st' unk')
    (hm : Moved (LinesClash Z lidNumber) files.flatten files'.flatten) {os os' : List (List RusArticle × List (List Byte))}
    (k : List.Forall₂ (fun l (o : List RusArticle × List (List Byte)) => RusLineSays (pipeSource Z T) lidNumber l o.1 o.2) files.flatten os)
    (k' : List.Forall₂ (fun l (o : List RusArticle × List (List Byte)) => RusLineSays (pipeSource Z T) lidNumber l o.1 o.2) files'.flatten os') :
    TwoOrders ((pipeSource Z T).dict T.mtab (os.map (·.1)).flatten) ((pipeSource Z T).dict T.mtab (os'.map (·.1)).flatten) := by
  have hc := h.tables
  have hf := pipe_fit h.fits hc
  have fl : ∀ {files : List (List (List Byte))}, (∀ lines ∈ files, ∀ l ∈ lines, 10 ∉ l ∧ 0 ∉ l ∧ l.length < 1022 ∧ LineFits l) → ∀ l ∈ files.flatten, LineFits l := by
    intro files hh l hl
    obtain ⟨lines, h1, h2⟩ := List.mem_flatten.1 hl
    exact (hh lines h1 l h2).2.2.2
  refine ⟨rfl, rfl, ?_⟩
  show Moved _ (os.map (·.1)).flatten (os'.map (·.1)).flatten
  rw [says_map hf k (fl h.lines), says_map hf k' (fl h'.lines)]
  refine hm.flatMap _ ?_
  intro x hx y hy hxy
  by_cases hxy' : x = y
  · exact Or.inl hxy'
  · refine Or.inr fun a ha b hb hab => hxy ?_
    obtain ⟨r, hr, hu⟩ := C60_line_total hf (fl h.lines x hx)
    obtain ⟨r', hr', hu'⟩ := C60_line_total hf (fl h.lines y hy)
    rw [hr, Option.map_some, Option.getD_some] at ha
    rw [hr', Option.map_some, Option.getD_some] at hb
    obtain ⟨L, s1, s2⟩ := says_to h.fits hc ((hu _ _).2 ⟨rfl, rfl⟩)
    obtain ⟨M, s3, s4⟩ := says_to h.fits hc ((hu' _ _).2 ⟨rfl, rfl⟩)
    obtain ⟨P, hP, hrP⟩ := forall₂_mem_right s2 ha
    obtain ⟨Q, hQ, hrQ⟩ := forall₂_mem_right s4 hb
    obtain ⟨c1, c2, c3, -⟩ := hab
    exact ⟨hxy', L, r.unk, M, r'.unk, s1, s3, P, hP, Q, hQ, by rw [← hrP.stem, ← hrQ.stem, c1], by rw [← hrP.post, ← hrQ.post, c2],
      by rw [← hrP.id, ← hrQ.id, c3]⟩

/-- **C83** The lines of the dictionary sources in another order, distributed over files in another way: as long as lines that clash keep their order,
every call answers the same. -/
theorem C83_lines (h : Pipeline conv fs endings alternations Z T files st unk) (h' : Pipeline conv fs endings alternations Z T files' st' unk')
    (hm : Moved (LinesClash Z lidNumber) files.flatten files'.flatten) :
    (∀ w junk dwsets, (wordParts rusTab w).length ≤ 8 →
      rusCheck (st.images T.mtab) junk w dwsets = rusCheck (st'.images T.mtab) junk w dwsets ∧
      (∀ L B G, rusLemmatize (st.images T.mtab) junk w L B G dwsets = rusLemmatize (st'.images T.mtab) junk w L B G dwsets) ∧
      ∀ B idform, rusFindForms (st.images T.mtab) junk B w idform dwsets = rusFindForms (st'.images T.mtab) junk B w idform dwsets) ∧
    ((∀ A, InFiles Z files A → A.id < 2 ^ 24) → (st.images T.mtab).lidstree.length < 2 ^ 32 → (st'.images T.mtab).lidstree.length < 2 ^ 32 →
      ∀ junk id, id < 2 ^ 32 → (lexkey id).length + junk.length = 16 →
        rusWdInfo (st.images T.mtab) junk id = rusWdInfo (st'.images T.mtab) junk id ∧
        ∀ B idform, rusBuildForm (st.images T.mtab) junk B id idform = rusBuildForm (st'.images T.mtab) junk B id idform) := by
  obtain ⟨al, os, k1, -, k3⟩ := h.images
  obtain ⟨al', os', k1', -, k3'⟩ := h'.images
  have t := h.two h' hm k1 k1'
  refine ⟨fun w junk dwsets hp => ⟨C83_check t k3 k3' w junk dwsets hp, fun L B G => C83_lemmatize t k3 k3' w junk dwsets hp L B G,
    fun B idform => C83_find_forms t k3 k3' w junk idform dwsets hp B⟩, ?_⟩
  intro hids hs hs' junk id hid hj
  have hi := h.idsOk hids hs k1
  have hi' := h'.idsOk (fun A ⟨line, hl, r⟩ => hids A ⟨line, hm.perm.mem_iff.2 hl, r⟩) hs' k1'
  exact ⟨C83_wd_info t k3 k3' hi hi' junk id hid hj, fun B idform => C83_build_form t k3 k3' hi hi' junk id idform hid hj B⟩

/-! ### A growing dictionary -/

/-- **C83** Lines added to the sources, in any places and any order, take no word away: what was recognized is recognized. Not so for words that are the stem
and the suffix of an article with a suffix. -/
theorem C83_growth_partial (h : Pipeline conv fs endings alternations Z T files st unk) (h' : Pipeline conv fs endings alternations Z T files' st' unk')
    (hs : ∀ line ∈ files.flatten, line ∈ files'.flatten) (w junk : List Byte) (dwsets : Nat) (hne : w ≠ []) (hlen : w.length < 48)
    (hparts : (wordParts rusTab w).length ≤ 8)
    (hpost : ∀ line ∈ files'.flatten, ∀ arts unk, SrcLineSays Z lidNumber line arts unk → ∀ A ∈ arts, A.post ≠ [] → w.map rusTab.lower ≠ A.stem ++ A.post)
    (hw : rusCheck (st.images T.mtab) junk w dwsets = some 1) : rusCheck (st'.images T.mtab) junk w dwsets = some 1 := by
  obtain ⟨line, h1, r⟩ := C68_sound h w junk dwsets hne hlen hparts hw
  exact C68_complete_partial h' w junk dwsets hne hlen hparts hpost ⟨line, hs line h1, r⟩

end

/-- **C83** in full: articles added take no word away. -/
def C83_growth_full : Prop := ∀ (A A' : List Byte) (D D' : RusDict) (st st' : RusState), RusOk A D st → RusOk A' D' st' → D'.ftab = D.ftab → D'.mtab = D.mtab →
  (∀ a ∈ D.arts, a ∈ D'.arts) → ∀ w junk dwsets, w ≠ [] → w.length < 48 → (wordParts rusTab w).length ≤ 8 →
    rusCheck (st.images D.mtab) junk w dwsets = some 1 → rusCheck (st'.images D'.mtab) junk w dwsets = some 1

/-- "там-то" alone. -/
def c83Dict : RusDict := ⟨[], [], fun _ => [], [⟨[242, 224, 236], 54, 0, 0, [45, 242, 238], 10⟩]⟩

theorem c83_builds : (rusBuild c83Dict.ftab c83Dict.mtab c83Dict.arts).isSome = true := by decide +kernel

/-- What the compiler makes of it. -/
def c83State : RusState := (rusBuild c83Dict.ftab c83Dict.mtab c83Dict.arts).get c83_builds

theorem c83_ok : RusOk [224, 236, 242] c83Dict c83State where
  built := by simp [c83State]
  alpha := by decide
  letters := by decide
  stems := by decide
  short := by decide
  ids := by decide
  posts := by decide
  text := by decide
  words := by decide
  prepos := by decide
  plainw := by decide
  refs := by decide
  tables := by
    intro a ha hinf
    have : ∀ a ∈ c83Dict.arts, ¬ a.Inflected := by decide
    exact absurd hinf (this a ha)
  long := by
    intro a ha hinf
    have : ∀ a ∈ c83Dict.arts, ¬ a.Inflected := by decide
    exact absurd hinf (this a ha)
  mixes := by
    intro a ha hmt
    have : ∀ a ∈ c83Dict.arts, a.mtoffs = 0 := by decide
    exact absurd (this a ha) hmt
  covers := by
    intro a ha
    have : ∀ a ∈ c83Dict.arts, ¬ a.Inflected ∧ a.mtoffs = 0 := by decide
    exact C45_bounds_cover_partial c83Dict a (fun h => absurd h (this a ha).1) (fun h => absurd h (this a ha).1)
      (fun h => absurd h (this a ha).1)
  count := by decide
  classes := by decide +kernel
  plain := by decide +kernel
  size := by decide +kernel

/-- **C83** refuted in full: "там-то" is a word of the dictionary until "там" is added to it. -/
theorem C83_growth_counterexample : ¬ C83_growth_full := by
  intro hf
  have := hf _ _ _ _ _ _ c83_ok c43_ok rfl rfl (by decide) [242, 224, 236, 45, 242, 238] [] 0 (by decide) (by decide) (by decide +kernel) (by decide +kernel)
  revert this
  decide +kernel

end Libmorph

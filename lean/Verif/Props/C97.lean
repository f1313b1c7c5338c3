import Verif.Props.C77
import Verif.Props.C83Ex
import Verif.Props.C96Page
import Mathlib.Data.List.ProdSigma
/-
C97: from the texts of the tables and of the dictionary to FindMatch; C83 and C96 for dictionaries compiled from texts, all calls.
-/
namespace Libmorph
open Spec

/-- `x` is an alternant of the article. -/
def SrcAlternant (A : SrcArticle) (x : List Nat) : Prop := (A.alt = none ∧ x = []) ∨ ∃ l, A.alt = some l ∧ x ∈ l.steps

/-- The limits of an article for a wildcard search: its suffix, alternants and endings have no wildcards (a question mark in an ending does no harm); the stem with
every alternant, every ending and the suffix is shorter than the buffer of 48 bytes. -/
structure ArticleSearched (Z : RusSrc) (A : SrcArticle) : Prop where
  stem : A.stem.length < 48
  post : ∀ c ∈ A.post, c ≠ 42 ∧ c ≠ 63
  alts : ∀ x, SrcAlternant A x → (∀ c ∈ x, c ≠ 42 ∧ c ≠ 63) ∧ (A.table ≠ none → A.stem.length + x.length + A.post.length < 48)
  ends : ∀ name e g fl, A.table = some name → SrcEnding Z.flex name e g fl → (∀ c ∈ e, c ≠ 42) ∧
    ∀ x, SrcAlternant A x → A.stem.length + x.length + e.length + A.post.length < 48

/-- The sources give the article the form `m`: an inflected one with an alternant, an ending and the number of its description (C27), an uninflected one without its
suffix and with the number 255. -/
def SrcReported (src : List (List Nat × List FxItem)) (A : SrcArticle) (m : StrMatch) : Prop :=
  (∃ name x e g fl, A.table = some name ∧ SrcInflects src A name x e g fl ∧ m.text = A.stem ++ x ++ e ++ A.post ∧ m.id = mapWordInfo A.info g fl) ∨
  (A.table = none ∧ m.id = 255 ∧ m.text = A.stem)

section
variable {conv : List Byte → List Byte} {fs : List Byte → Option (List Byte)} {endings alternations : List Byte} {Z : RusSrc} {T : RusTabs}
  {files files' : List (List (List Byte))} {st st' : RusState} {unk unk' : List (List Byte)}

theorem lidNumber_ne {A : SrcArticle} (h : InFiles Z files A) : A.id ≠ 0 := by
  obtain ⟨line, -, arts, u, ⟨s, -, h⟩, hA⟩ := h
  rcases h with ⟨-, rfl, -⟩ | ⟨-, -, rfl, -⟩ | ⟨-, t, l, -, hn, -, ⟨-, rfl, -⟩ | ⟨-, rfl, -⟩⟩
  · simp at hA
  · simp at hA
  · simp at hA
  · obtain ⟨B, -, rfl⟩ := List.mem_map.1 hA
    exact hn

theorem altsOf_src (hz : TablesFit Z) {A : SrcArticle} {a : RusArticle} (hr : Realizes Z T A a) (all : List RusArticle) {x : List Byte}
    (hx : x ∈ ((pipeSource Z T).dict T.mtab all).altsOf a) : SrcAlternant A x := by
  rw [RusDict.altsOf] at hx
  rcases hr.alt with ⟨a1, a2⟩ | ⟨l, a1, a2, a3, a4, a5⟩
  · rw [if_pos a2, List.mem_singleton] at hx
    exact Or.inl ⟨a1, hx⟩
  · rw [if_neg a3] at hx
    obtain ⟨p, hp, rfl⟩ := List.mem_map.1 hx
    exact Or.inr ⟨l, a2, pipeAlts_mem hz a1 a5 hp⟩

theorem Pipeline.wildOk (h : Pipeline conv fs endings alternations Z T files st unk) (hw : ∀ A, InFiles Z files A → ArticleSearched Z A)
    {os : List (List RusArticle × List (List Byte))}
    (k1 : List.Forall₂ (fun l (o : List RusArticle × List (List Byte)) => RusLineSays (pipeSource Z T) lidNumber l o.1 o.2) files.flatten os) :
    RusWildOk ((pipeSource Z T).dict T.mtab (os.map (·.1)).flatten) := by
  have hc := h.tables
  have hz := h.fits
  have q := (h.articles_of k1).1
  have inflected : ∀ {A : SrcArticle} {a : RusArticle}, Realizes Z T A a → a.Inflected → ∃ name, A.table = some name ∧ mapFind T.findex name = some a.tfoffs := by
    intro A a hr hi
    rcases hr.table with ⟨-, -, k, -⟩ | ⟨name, e1, e2, -, -⟩
    · exact absurd hi k
    · exact ⟨name, e1, e2⟩
  constructor
  · intro a ha hi e g fl he
    obtain ⟨A, hA, hr⟩ := q a ha
    obtain ⟨name, e1, e2⟩ := inflected hr hi
    exact ((hw A hA).ends name e g fl e1 ((ending_iff hz hc e2 e g fl).1 he)).1
  · intro a ha hi x hx
    obtain ⟨A, hA, hr⟩ := q a ha
    exact ((hw A hA).alts x (altsOf_src hz hr _ hx)).1
  · intro a ha
    obtain ⟨A, hA, hr⟩ := q a ha
    rw [hr.post]; exact (hw A hA).post
  · intro a ha
    obtain ⟨A, hA, hr⟩ := q a ha
    rw [hr.stem]; exact (hw A hA).stem
  · intro a ha hi x hx
    obtain ⟨A, hA, hr⟩ := q a ha
    obtain ⟨name, e1, e2⟩ := inflected hr hi
    rw [hr.stem, hr.post]
    exact ((hw A hA).alts x (altsOf_src hz hr _ hx)).2 (by rw [e1]; simp)
  · intro a ha hi x hx e g fl he
    obtain ⟨A, hA, hr⟩ := q a ha
    obtain ⟨name, e1, e2⟩ := inflected hr hi
    rw [hr.stem, hr.post]
    exact ((hw A hA).ends name e g fl e1 ((ending_iff hz hc e2 e g fl).1 he)).2 x (altsOf_src hz hr _ hx)
  · intro a ha
    obtain ⟨A, hA, hr⟩ := q a ha
    rw [hr.id]; exact lidNumber_ne hA

/-- **C97** FindMatch with the compiled dictionary tells the client only what the sources say: each match fits the template, in small letters, and is a form, with its
number, of an article of some line with that number. -/
theorem C97_sound (h : Pipeline conv fs endings alternations Z T files st unk) (hw : ∀ A, InFiles Z files A → ArticleSearched Z A)
    (tail smatch : List Byte) (htail : tail ≠ []) (hbuf : smatch.length = 48)
    (client : List (Nat × List StrMatch) → Int) (str : List Byte) (hne : str ≠ []) (hlen : str.length < 48)
    (hparts : (wordParts rusTab str).length ≤ 8) {n : Int} {C : List (Nat × List StrMatch)}
    (hres : rusFindMatch (st.images T.mtab) tail smatch client str = some (n, C)) :
    ∀ c ∈ C, c.2 ≠ [] ∧ ∀ m ∈ c.2, WildMatch (str.map rusTab.lower) m.text ∧ ∃ A, InFiles Z files A ∧ A.id = c.1 ∧ SrcReported Z.flex A m := by
  have hc := h.tables
  obtain ⟨alphabet, os, k1, -, k3⟩ := h.images
  have hwo := h.wildOk hw k1
  obtain ⟨C', R, h1, h2⟩ := (C31_rus_exact_partial k3 hwo tail smatch htail hbuf client str hne hlen hparts).1 _ hres
  simp only [Prod.mk.injEq] at h1
  intro c hcm
  refine ⟨h2.nonempty c (by rw [← h1.2]; exact hcm), fun m hm => ?_⟩
  obtain ⟨e1, a, ha, e2, e3⟩ := C30_rus_sound k3 hwo tail smatch htail hbuf client str hne hlen hparts hres c hcm m hm
  obtain ⟨A, hA, hr⟩ := (h.articles_of k1).1 a ha
  refine ⟨e1, A, hA, by rw [← hr.id]; exact e2, ?_⟩
  rcases e3 with ⟨hi, -, x, e, g, r1, r2, r3⟩ | ⟨hi, r2, r3⟩
  · rcases hr.table with ⟨-, -, k, -⟩ | ⟨name, t1, t2, t3, -⟩
    · exact absurd hi k
    · exact Or.inl ⟨name, x, e, g.gramm, g.flags, t1, (reads_iff h.fits hc hr t1 t2 t3 _ _ x e g).1 r1, by rw [r2, hr.stem, hr.post], by rw [r3, hr.info]⟩
  · rcases hr.table with ⟨t1, -, -, -⟩ | ⟨name, -, -, k, -⟩
    · exact Or.inr ⟨t1, r2, by rw [r3, hr.stem]⟩
    · exact absurd k hi

/-- **C97** ... and all of it: when the search is defined, every form of every article that fits the template is reported with its number.  Missing: forms of inflected
articles with a suffix that consist of stem and suffix only (C23). -/
theorem C97_complete_partial (h : Pipeline conv fs endings alternations Z T files st unk) (hw : ∀ A, InFiles Z files A → ArticleSearched Z A)
    (tail smatch : List Byte) (htail : tail ≠ []) (hbuf : smatch.length = 48)
    (client : List (Nat × List StrMatch) → Int) (str : List Byte) (hne : str ≠ []) (hlen : str.length < 48)
    (hparts : (wordParts rusTab str).length ≤ 8) {n : Int} {C : List (Nat × List StrMatch)}
    (hres : rusFindMatch (st.images T.mtab) tail smatch client str = some (n, C))
    (A : SrcArticle) (hA : InFiles Z files A) (m : StrMatch) (hm : SrcReported Z.flex A m) (hfit : WildMatch (str.map rusTab.lower) m.text)
    (hmid : A.table = none ∨ A.post = [] ∨ m.text ≠ A.stem ++ A.post) : ∃ c ∈ C, c.1 = A.id ∧ m ∈ c.2 := by
  have hc := h.tables
  obtain ⟨alphabet, os, k1, -, k3⟩ := h.images
  have hwo := h.wildOk hw k1
  obtain ⟨a, ha, hr⟩ := (h.articles_of k1).2 A hA
  obtain ⟨text, id⟩ := m
  rcases hm with ⟨name, x, e, g, fl, t1, r1, r2, r3⟩ | ⟨t1, r2, r3⟩
  · have key := C31_rus_complete_partial k3 hwo tail smatch htail hbuf client str hne hlen hparts hres a ha
    simp only at r2 r3
    subst r2 r3
    rcases hr.table with ⟨k, -, -, -⟩ | ⟨name', u1, u2, u3, -⟩
    · rw [k] at t1; simp at t1
    · rw [u1] at t1; cases t1
      have := key x e ⟨g, fl⟩ ((reads_iff h.fits hc hr u1 u2 u3 _ _ x e ⟨g, fl⟩).2 r1) (by rw [hr.stem, hr.post]; exact hfit) (by
        rcases hmid with k | k | k
        · rw [u1] at k; simp at k
        · exact Or.inl (by rw [hr.post]; exact k)
        · refine Or.inr ⟨u3, Or.inl fun k0 => k ?_⟩
          obtain ⟨rfl, rfl⟩ := List.append_eq_nil_iff.1 k0
          simp)
      rw [hr.stem, hr.post, hr.id, if_pos u3, hr.info] at this
      exact this
  · simp only at r2 r3
    subst r2 r3
    rcases hr.table with ⟨-, -, u3, -⟩ | ⟨name', u1, -, -, -⟩
    · obtain ⟨C', R, h1, h2⟩ := (C31_rus_exact_partial k3 hwo tail smatch htail hbuf client str hne hlen hparts).1 _ hres
      simp only [Prod.mk.injEq] at h1
      have hrep : WildHit.report ⟨a, [], [], ⟨a.tfoffs, 0⟩⟩ = (A.id, ⟨A.stem, 255⟩) := by
        simp only [WildHit.report, u3, if_false, hr.stem, hr.id]
      have hf : ((pipeSource Z T).dict T.mtab (os.map (·.1)).flatten).WildFound (str.map rusTab.lower) ⟨a, [], [], ⟨a.tfoffs, 0⟩⟩ :=
        ⟨ha, by rw [RusDict.Reads, if_neg u3]; exact ⟨rfl, rfl, rfl⟩, by rw [hrep]; exact hfit, fun k => absurd k u3⟩
      have hmem : (A.id, (⟨A.stem, 255⟩ : StrMatch)) ∈ C'.flatMap fun c => c.2.map fun m => (c.1, m) := by
        rw [h2.reported]
        exact List.mem_map.2 ⟨_, (h2.found _).2 hf, hrep⟩
      obtain ⟨c, hcm, hm⟩ := List.mem_flatMap.1 hmem
      obtain ⟨m, hm, e⟩ := List.mem_map.1 hm
      simp only [Prod.mk.injEq] at e
      obtain ⟨e1, rfl⟩ := e
      exact ⟨c, by rw [h1.2]; exact hcm, e1, hm⟩
    · rw [u1] at t1; simp at t1

/-- **C97** When it is defined: at least when no asterisk of the template is followed by anything, the articles have different numbers and none has more than 512 readings;
the calls of the client are then for different articles.  (For other templates and dictionaries the buffers may overflow, see C31.) -/
theorem C97_defined_partial (h : Pipeline conv fs endings alternations Z T files st unk) (hw : ∀ A, InFiles Z files A → ArticleSearched Z A)
    (hids : ∀ all : List (List SrcArticle), List.Forall₂ (fun line arts => ∃ u, SrcLineSays Z lidNumber line arts u) files.flatten all →
      (all.flatten.map SrcArticle.id).Nodup)
    (hfew : ∀ A, InFiles Z files A → ∀ name, A.table = some name → ∀ l : List (List Byte × List Byte × FlexInfo), l.Nodup →
      (∀ q ∈ l, SrcInflects Z.flex A name q.1 q.2.1 q.2.2.gramm q.2.2.flags) → l.length ≤ 512)
    (tail smatch : List Byte) (htail : tail ≠ []) (hbuf : smatch.length = 48)
    (client : List (Nat × List StrMatch) → Int) (str : List Byte) (hne : str ≠ []) (hlen : str.length < 48)
    (hparts : (wordParts rusTab str).length ≤ 8) (hstar : StarLast (str.map rusTab.lower)) :
    ∃ C, rusFindMatch (st.images T.mtab) tail smatch client str = some (if C = [] then 0 else client C, C) ∧ (C.map Prod.fst).Nodup := by
  have hc := h.tables
  obtain ⟨alphabet, os, k1, -, k3⟩ := h.images
  have hwo := h.wildOk hw k1
  suffices key : (((pipeSource Z T).dict T.mtab (os.map (·.1)).flatten).arts.map RusArticle.id).Nodup ∧
      ((pipeSource Z T).dict T.mtab (os.map (·.1)).flatten).FewReadings by
    obtain ⟨C, R, e1, -, -, e2⟩ := (C31_rus_exact_partial k3 hwo tail smatch htail hbuf client str hne hlen hparts).2 hstar key.1 key.2
    exact ⟨C, e1, e2⟩
  constructor
  · show ((os.map (·.1)).flatten.map RusArticle.id).Nodup
    have : ∃ all : List (List SrcArticle), List.Forall₂ (fun line arts => ∃ u, SrcLineSays Z lidNumber line arts u) files.flatten all ∧
        (os.map (·.1)).flatten.map RusArticle.id = all.flatten.map SrcArticle.id := by
      clear hids hfew hwo k3
      generalize files.flatten = lines at k1
      induction k1 with
      | nil => exact ⟨[], .nil, rfl⟩
      | @cons line o lines os hsay _ ih =>
        obtain ⟨all, i1, i2⟩ := ih
        obtain ⟨L, s1, s2⟩ := says_to h.fits hc hsay
        refine ⟨L :: all, .cons ⟨o.2, s1⟩ i1, ?_⟩
        simp only [List.map_cons, List.flatten_cons, List.map_append, i2]
        congr 1
        clear s1 hsay
        generalize o.1 = l at s2 ⊢
        induction s2 with
        | nil => rfl
        | cons hr _ ih => simp only [List.map_cons, ih, hr.id]
    obtain ⟨all, i1, i2⟩ := this
    rw [i2]
    exact hids all i1
  · intro a ha l hn hl
    obtain ⟨A, hA, hr⟩ := (h.articles_of k1).1 a ha
    rcases hr.table with ⟨t1, -, u3, -⟩ | ⟨name, u1, u2, u3, -⟩
    · have : ∀ q ∈ l, q = ([], [], ⟨a.tfoffs, 0⟩) := by
        intro q hq
        have := hl q hq
        rw [RusDict.Reads, if_neg u3] at this
        obtain ⟨x, e, g⟩ := q
        obtain ⟨rfl, rfl, rfl⟩ := this
        rfl
      have : l ⊆ [([], [], ⟨a.tfoffs, 0⟩)] := fun q hq => by simp [this q hq]
      have := (List.Nodup.subperm hn this).length_le
      simp only [List.length_singleton] at this
      omega
    · exact hfew A hA name u1 l hn fun q hq => (reads_iff h.fits hc hr u1 u2 u3 _ _ q.1 q.2.1 q.2.2).1 (hl q hq)

/-- **C83** The lines of the sources in another order: every call of every object, for any code page and on any stack, answers the same, FindMatch included. -/
theorem C83_lines_calls (P : Page) (h : Pipeline conv fs endings alternations Z T files st unk) (h' : Pipeline conv fs endings alternations Z T files' st' unk')
    (hm : Moved (LinesClash Z lidNumber) files.flatten files'.flatten) (hw : ∀ A, InFiles Z files A → ArticleSearched Z A)
    (hids : ∀ A, InFiles Z files A → A.id < 2 ^ 24) (hs : (st.images T.mtab).lidstree.length < 2 ^ 32) (hs' : (st'.images T.mtab).lidstree.length < 2 ^ 32)
    (r : Request) (hr : r.OkIn P) (k k' : Stack) (hk : k.Ok) (hk' : k'.Ok) :
    rusServeIn P (st.images T.mtab) k r = rusServeIn P (st'.images T.mtab) k' r := by
  obtain ⟨al, os, k1, -, k3⟩ := h.images
  obtain ⟨al', os', k1', -, k3'⟩ := h'.images
  exact C83_code_page P (h.two h' hm k1 k1') k3 k3' (h.idsOk hids hs k1)
    (h'.idsOk (fun A ⟨line, hl, r⟩ => hids A ⟨line, hm.perm.mem_iff.2 hl, r⟩) hs' k1') (h.wildOk hw k1) r hr k k' hk hk'

/-- **C83** The same for the objects of the code page 1251, which do not convert. -/
theorem C83_lines_match (h : Pipeline conv fs endings alternations Z T files st unk) (h' : Pipeline conv fs endings alternations Z T files' st' unk')
    (hm : Moved (LinesClash Z lidNumber) files.flatten files'.flatten) (hw : ∀ A, InFiles Z files A → ArticleSearched Z A)
    (tail tail' smatch smatch' : List Byte) (htail : tail ≠ []) (htail' : tail' ≠ []) (hbuf : smatch.length = 48) (hbuf' : smatch'.length = 48)
    (client : List (Nat × List StrMatch) → Int) (str : List Byte) :
    rusFindMatch (st.images T.mtab) tail smatch client str = rusFindMatch (st'.images T.mtab) tail' smatch' client str := by
  obtain ⟨al, os, k1, -, k3⟩ := h.images
  obtain ⟨al', os', k1', -, k3'⟩ := h'.images
  exact C83_find_match (h.two h' hm k1 k1') k3 k3' (h.wildOk hw k1) tail tail' smatch smatch' htail htail' hbuf hbuf' client str

/-- **C96** for a dictionary compiled from texts. -/
theorem C96_sources (h : Pipeline conv fs endings alternations Z T files st unk) (hw : ∀ A, InFiles Z files A → ArticleSearched Z A)
    (hids : ∀ A, InFiles Z files A → A.id < 2 ^ 24) (hs : (st.images T.mtab).lidstree.length < 2 ^ 32)
    (H : List ApiCall) (hH : ∀ c ∈ H, c.stack.Ok ∧ c.asks.Ok rusTab) (R : List (Nat × Reply)) (hR : history (rusServe (st.images T.mtab)) H = some R)
    (who : Nat) (alone : List ApiCall) (ha : ∀ c ∈ alone, c.stack.Ok) (e : alone.map ApiCall.asks = (H.filter fun c => c.who = who).map ApiCall.asks) :
    (history (rusServe (st.images T.mtab)) alone).map (fun Q => Q.map Prod.snd) = some ((R.filter fun q => q.1 = who).map Prod.snd) := by
  obtain ⟨al, os, k1, -, k3⟩ := h.images
  exact C96_russian k3 (h.idsOk hids hs k1) (h.wildOk hw k1) H hH R hR who alone ha e

end

/-! ### The sample -/

theorem pipe_searched : ∀ A, InFiles pipeSrc pipeTexts A → ArticleSearched pipeSrc A := by
  rintro A ⟨line, hline, arts, u, hs, hA⟩
  obtain ⟨r, hr1, a, ha, hr⟩ := pipe_realizes line hline arts u hs A hA
  have key : ∀ r ∈ pipeResults, ∀ a ∈ RusLineResult.arts r, a.stem.length < 20 ∧ a.post.length < 5 ∧ ∀ b ∈ a.post, b ≠ 42 ∧ b ≠ 63 := by decide +kernel
  obtain ⟨k1, k2, k3⟩ := key r hr1 a ha
  rw [hr.stem] at k1
  rw [hr.post] at k2 k3
  have mix : ∀ l ∈ pipeSrc.mix, ∀ x ∈ l.steps, x.length < 5 ∧ ∀ c ∈ x, c ≠ 42 ∧ c ≠ 63 := by decide +kernel
  have lst : ∀ l ∈ [3, 12, 16, 25, 46].filterMap (allEndings pipeTabs.ftab 3), ∀ p ∈ l, p.1.length < 10 ∧ ∀ b ∈ p.1, b ≠ 42 := by decide +kernel
  have alts : ∀ x, SrcAlternant A x → x.length < 5 ∧ ∀ c ∈ x, c ≠ 42 ∧ c ≠ 63 := by
    rintro x (⟨-, rfl⟩ | ⟨l, hl, hx⟩)
    · simp
    · rcases hr.alt with ⟨h1, _⟩ | ⟨l', hl', h1, _⟩
      · rw [h1] at hl; simp at hl
      · rw [h1] at hl; cases hl
        exact mix _ hl' x hx
  refine ⟨by omega, k3, fun x hx => ⟨(alts x hx).2, fun _ => by have := (alts x hx).1; omega⟩, ?_⟩
  intro name e g fl h he
  rcases hr.table with ⟨h1, _⟩ | ⟨name', h1, h2, _⟩
  · rw [h1] at h; simp at h
  · rw [h1] at h; cases h
    obtain ⟨l, hl, hm⟩ := pipe_endings h2
    obtain ⟨p1, p2⟩ := lst l hl _ (hm e g fl he)
    simp only at p1 p2
    exact ⟨p2, fun x hx => by have := (alts x hx).1; omega⟩

theorem pipe_ids_of {line : List Byte} {arts : List SrcArticle} {u : List (List Byte)} (hs : SrcLineSays pipeSrc lidNumber line arts u) {r : RusLineResult}
    (hr : rusLine pipeTabs line = some r) : arts.map SrcArticle.id = r.arts.map RusArticle.id := by
  obtain ⟨l, s1, s2⟩ := says_of pipe_fits pipe_compiled hs
  obtain ⟨e1, _⟩ := RusLineSays_unique (pipe_fit pipe_fits pipe_compiled) s1 (rusLine_sound (pipe_fit pipe_fits pipe_compiled) hr)
  rw [← e1]
  clear hs s1 e1
  induction s2 with
  | nil => rfl
  | cons hr _ ih => simp only [List.map_cons, ih, hr.id]

theorem pipe_all_ids (all : List (List SrcArticle)) (h : List.Forall₂ (fun line arts => ∃ u, SrcLineSays pipeSrc lidNumber line arts u) pipeTexts.flatten all) :
    (all.flatten.map SrcArticle.id).Nodup := by
  have : all.flatten.map SrcArticle.id = (pipeResults.map RusLineResult.arts).flatten.map RusArticle.id := by
    have e := pipe_lines
    generalize pipeTexts.flatten = lines at h e
    generalize pipeResults = rs at e
    induction h generalizing rs with
    | nil =>
      cases rs with
      | nil => rfl
      | cons => simp at e
    | @cons line arts lines all hs _ ih =>
      cases rs with
      | nil => simp at e
      | cons r rs =>
        simp only [List.map_cons, List.cons.injEq] at e
        obtain ⟨u, hs⟩ := hs
        simp only [List.map_cons, List.flatten_cons, List.map_append, ih rs e.2, pipe_ids_of hs e.1]
  rw [this]
  decide +kernel

theorem pipe_few : ∀ A, InFiles pipeSrc pipeTexts A → ∀ name, A.table = some name → ∀ l : List (List Byte × List Byte × FlexInfo), l.Nodup →
    (∀ q ∈ l, SrcInflects pipeSrc.flex A name q.1 q.2.1 q.2.2.gramm q.2.2.flags) → l.length ≤ 512 := by
  rintro A ⟨line, hline, arts, u, hs, hA⟩ name hname l hn hl
  obtain ⟨r, hr1, a, ha, hr⟩ := pipe_realizes line hline arts u hs A hA
  rcases hr.table with ⟨h1, _⟩ | ⟨name', h1, h2, _⟩
  · rw [h1] at hname; simp at hname
  · rw [h1] at hname; cases hname
    obtain ⟨E, hE, hm⟩ := pipe_endings h2
    have lst : ∀ l ∈ [3, 12, 16, 25, 46].filterMap (allEndings pipeTabs.ftab 3), l.length ≤ 100 := by decide +kernel
    have alts : ∃ X : List (List Byte), X.length ≤ 4 ∧ ∀ x, (A.alt = none ∧ x = [] ∨ ∃ l, A.alt = some l ∧ x ∈ l.steps) → x ∈ X := by
      rcases hr.alt with ⟨k, _⟩ | ⟨l', hl', k, _⟩
      · refine ⟨[[]], by simp, ?_⟩
        rintro x (⟨-, rfl⟩ | ⟨l, e, -⟩)
        · simp
        · rw [k] at e; simp at e
      · refine ⟨l'.steps, (pipe_fits.steps l' hl').2.1, ?_⟩
        rintro x (⟨e, -⟩ | ⟨l, e, hx⟩)
        · rw [k] at e; simp at e
        · rw [k] at e; cases e; exact hx
    obtain ⟨X, x1, x2⟩ := alts
    have sub : l ⊆ X ×ˢ E := by
      intro q hq
      obtain ⟨k1, -, k3⟩ := hl q hq
      refine List.mem_product.2 ⟨x2 _ ?_, hm _ _ _ k1⟩
      rcases k3 with k | ⟨l, e, hst⟩
      · exact Or.inl k
      · exact Or.inr ⟨l, e, by
          rcases hst with k | ⟨-, -, k⟩
          · exact List.mem_of_getElem? k
          · exact List.mem_of_head? k⟩
    have := (List.Nodup.subperm hn sub).length_le
    rw [List.length_product] at this
    have := lst E hE
    have : X.length * E.length ≤ 4 * 100 := Nat.mul_le_mul x1 this
    omega

/-- All searches with the asterisk at the end are defined in the sample. -/
example (client : List (Nat × List StrMatch) → Int) (str : List Byte) (hne : str ≠ []) (hlen : str.length < 48)
    (hparts : (wordParts rusTab str).length ≤ 8) (hstar : StarLast (str.map rusTab.lower)) :
    ∃ C, rusFindMatch (pipeState.images pipeTabs.mtab) [0] (List.replicate 48 0) client str = some (if C = [] then 0 else client C, C) ∧ (C.map Prod.fst).Nodup :=
  C97_defined_partial pipe_pipeline pipe_searched pipe_all_ids pipe_few [0] _ (by simp) (by simp) client str hne hlen hparts hstar

/-- The template "смея*" meets the conditions and finds forms of the verb 14 only. -/
example : (ru "смея*").length < 48 ∧ (wordParts rusTab (ru "смея*")).length ≤ 8 ∧
    ((rusFindMatch (pipeState.images pipeTabs.mtab) [0] (List.replicate 48 0) (fun _ => 5) (ru "смея*")).map fun r => (r.1, r.2.map Prod.fst)) = some (5, [14]) := by
  decide +kernel

/-- In the dictionary compiled from the lines in the opposite order it finds the same. -/
example : rusFindMatch (pipeState.images pipeTabs.mtab) [0] (List.replicate 48 0) (fun _ => 5) (ru "смея*")
    = rusFindMatch (backState.images pipeTabs.mtab) [7] (List.replicate 48 1) (fun _ => 5) (ru "смея*") :=
  C83_lines_match pipe_pipeline back_pipeline back_moved pipe_searched [0] [7] _ _ (by simp) (by simp) (by simp) (by simp) _ _

end Libmorph

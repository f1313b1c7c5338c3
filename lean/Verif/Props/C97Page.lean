import Verif.Props.C97
import Verif.Props.C92
/-
C97: from the texts of the tables and of the dictionary to FindMatch, other code pages.
-/
namespace Libmorph
open Spec

variable {conv : List Byte → List Byte} {fs : List Byte → Option (List Byte)} {endings alternations : List Byte} {Z : RusSrc} {T : RusTabs}
  {files : List (List (List Byte))} {st : RusState} {unk : List (List Byte)} {P : Page} {enc : Byte → List Byte} {known : Byte → Prop}

/-- The texts that FindMatch reports are shorter than 48 bytes in code page 1251. -/
theorem srcReported_short (hw : ∀ A, InFiles Z files A → ArticleSearched Z A) {A : SrcArticle} (hA : InFiles Z files A) {m : StrMatch}
    (hm : SrcReported Z.flex A m) : m.text.length < 48 := by
  rcases hm with ⟨name, x, e, g, fl, t1, ⟨r1, -, r2⟩, r3, -⟩ | ⟨-, -, r3⟩
  · have hx : SrcAlternant A x := by
      rcases r2 with ⟨r2, rfl⟩ | ⟨l, r2, r4⟩
      · exact Or.inl ⟨r2, rfl⟩
      · refine Or.inr ⟨l, r2, ?_⟩
        rcases r4 with r4 | ⟨-, -, r4⟩
        · exact List.mem_of_getElem? r4
        · exact List.mem_of_mem_head? (by rw [r4]; simp)
    have := ((hw A hA).ends name e g fl t1 r1).2 x hx
    rw [r3]; simp only [List.length_append]; omega
  · rw [r3]; exact (hw A hA).stem

theorem utf8_twice (t : List Byte) : (inPage utf8Enc t).length ≤ 2 * t.length := by
  induction t with
  | nil => simp [inPage]
  | cons b t ih =>
    have hb : (utf8Enc b).length ≤ 2 := by rw [utf8Enc]; split <;> [simp; (split <;> simp)]
    simp only [inPage, List.flatMap_cons, List.length_append, List.length_cons] at ih ⊢
    omega

/-- **C97** FindMatch in a code page with the dictionary compiled from texts: when the texts found in code page 1251 fit, converted, the arrays for the client, the client is
told the same, converted; what it is told is what the sources say. -/
theorem C97_code_page (h : Pipeline conv fs endings alternations Z T files st unk) (hw : ∀ A, InFiles Z files A → ArticleSearched Z A) (hP : P.Ok enc known)
    (tail smatch : List Byte) (htail : tail ≠ []) (hbuf : smatch.length = 48) (client client' : List (Nat × List StrMatch) → Int)
    (str : List Byte) (hne : str ≠ []) (hk : ∀ b ∈ str, known b) (hl : (inPage enc str).length < 48) (hparts : (wordParts rusTab str).length ≤ 8)
    {n : Int} {C : List (Nat × List StrMatch)} (hres : rusFindMatch (st.images T.mtab) tail smatch client str = some (n, C))
    (hfit : ∀ c ∈ C, (∀ m ∈ c.2, (inPage enc m.text).length ≤ 95) ∧ matchBytes (convMatches enc c.2) ≤ 256 * 96) :
    rusFindMatchIn P (st.images T.mtab) tail smatch client' (inPage enc str) = some (if C = [] then 0 else client' (convCalls enc C), convCalls enc C) ∧
    ∀ c ∈ convCalls enc C, ∀ m ∈ c.2, ∃ A, InFiles Z files A ∧ A.id = c.1 ∧
      ∃ m0, m.text = inPage enc m0.text ∧ m.id = m0.id ∧ WildMatch (str.map rusTab.lower) m0.text ∧ SrcReported Z.flex A m0 := by
  have hle := hP.length_le str
  have hc := h.tables
  obtain ⟨alphabet, os, k1, -, k3⟩ := h.images
  have hwo := h.wildOk hw k1
  constructor
  · exact (C84_find_match hP (st.images T.mtab) tail smatch str hk hl (fun low sch V _ hV => rusFound_ids k3 hwo tail smatch low htail hbuf hV)
      client client' n C hres hfit).2
  · intro c hcm m hm
    simp only [convCalls, List.mem_map] at hcm
    obtain ⟨c0, hc0, rfl⟩ := hcm
    simp only [convMatches, List.mem_map] at hm
    obtain ⟨m0, hm0, rfl⟩ := hm
    obtain ⟨e1, A, hA, e2, e3⟩ := (C97_sound h hw tail smatch htail hbuf client str hne (by omega) hparts hres c0 hc0).2 m0 hm0
    exact ⟨A, hA, e2, m0, rfl, rfl, e1, e3⟩

/-- **C97** FindMatch in UTF-8: the texts always fit one by one, and 256 forms of one lexeme fit together. -/
theorem C97_utf8 (h : Pipeline conv fs endings alternations Z T files st unk) (hw : ∀ A, InFiles Z files A → ArticleSearched Z A)
    (tail smatch : List Byte) (htail : tail ≠ []) (hbuf : smatch.length = 48) (client client' : List (Nat × List StrMatch) → Int)
    (str : List Byte) (hne : str ≠ []) (hk : ∀ b ∈ str, utf8Known b) (hl : (inPage utf8Enc str).length < 48) (hparts : (wordParts rusTab str).length ≤ 8)
    {n : Int} {C : List (Nat × List StrMatch)} (hres : rusFindMatch (st.images T.mtab) tail smatch client str = some (n, C))
    (hmany : ∀ c ∈ C, c.2.length ≤ 256) :
    rusFindMatchIn utf8Page (st.images T.mtab) tail smatch client' (inPage utf8Enc str) =
      some (if C = [] then 0 else client' (convCalls utf8Enc C), convCalls utf8Enc C) := by
  have hle := utf8Page_ok.length_le str
  have hone : ∀ c ∈ C, ∀ m ∈ c.2, (inPage utf8Enc m.text).length ≤ 94 := by
    intro c hc m hm
    obtain ⟨-, A, hA, -, e3⟩ := (C97_sound h hw tail smatch htail hbuf client str hne (by omega) hparts hres c hc).2 m hm
    have := srcReported_short hw hA e3
    have := utf8_twice m.text
    omega
  refine (C97_code_page h hw utf8Page_ok tail smatch htail hbuf client client' str hne hk hl hparts hres fun c hc => ⟨fun m hm => ?_, ?_⟩).1
  · have := hone c hc m hm
    omega
  · have h1 := hone c hc
    have h2 := hmany c hc
    have key : ∀ ms : List StrMatch, (∀ m ∈ ms, (inPage utf8Enc m.text).length ≤ 94) → matchBytes (convMatches utf8Enc ms) ≤ ms.length * 96 := by
      intro ms
      induction ms with
      | nil => intro _; simp [matchBytes, convMatches]
      | cons m ms ih =>
        intro h
        have i1 := h m (by simp)
        have i2 := ih fun x hx => h x (by simp [hx])
        simp only [matchBytes, convMatches, List.map_cons, List.sum_cons, List.length_cons] at i2 ⊢
        omega
    have := key c.2 h1
    omega

/-- The sample in UTF-8: "смея*" finds forms of the verb 14 only. -/
example : ∃ C, rusFindMatchIn utf8Page (pipeState.images pipeTabs.mtab) [0] (List.replicate 48 0) (fun _ => 5) (inPage utf8Enc (ru "смея*")) = some (5, C) ∧ C.map Prod.fst = [14] := by
  have e : ((rusFindMatch (pipeState.images pipeTabs.mtab) [0] (List.replicate 48 0) (fun _ => 5) (ru "смея*")).map fun r =>
      (r.1, r.2.map Prod.fst, r.2.all fun c => decide (c.2.length ≤ 256))) = some (5, [14], Bool.true) := by decide +kernel
  cases hr : rusFindMatch (pipeState.images pipeTabs.mtab) [0] (List.replicate 48 0) (fun _ => 5) (ru "смея*") with
  | none => rw [hr] at e; simp at e
  | some r =>
    obtain ⟨n, C⟩ := r
    rw [hr] at e
    simp only [Option.map_some, Option.some.injEq, Prod.mk.injEq] at e
    obtain ⟨-, e2, e3⟩ := e
    have hk : ∀ b ∈ ru "смея*", utf8Known b := by decide +kernel
    have := C97_utf8 pipe_pipeline pipe_searched [0] (List.replicate 48 0) (by simp) (by simp) (fun _ => 5) (fun _ => 5) (ru "смея*") (by decide +kernel) hk
      (by decide +kernel) (by decide +kernel) hr (by simpa using e3)
    have hC : C ≠ [] := by rintro rfl; simp at e2
    rw [if_neg hC] at this
    refine ⟨_, this, ?_⟩
    rw [← e2, convCalls, List.map_map]
    rfl

end Libmorph

import Verif.Props.C80Src
import Verif.Lemmas.Truncate
import Verif.Spec.Crash
/-
C82.  A dictionary compiler stopped while it writes: what is left of its files does not build a library, or builds the right one.
-/
namespace Libmorph
open Spec

theorem declsOf_cons (f : Option (List Byte)) (fs : List (Option (List Byte))) :
    declsOf (f :: fs) = (f.bind cRead).bind fun d => (declsOf fs).map (d ++ ·) := by
  rw [declsOf, declsOf, List.mapM_cons]
  cases f.bind cRead with
  | none => rfl
  | some d => cases (fs.mapM fun (t : Option (List Byte)) => t.bind cRead) <;> simp

/-- What is left of files that compile: it does not compile, or it declares a part of what they declare. -/
theorem declsOf_left : ∀ (fs ls : List (Option (List Byte))) (ds : List CDecl), declsOf fs = some ds → LeftOver fs ls →
    declsOf ls = none ∨ ∃ ds', declsOf ls = some ds' ∧ ds'.Sublist ds
  | [], [], ds, h, _ => Or.inr ⟨ds, h, List.Sublist.refl _⟩
  | [], _ :: _, _, _, hl => hl.elim
  | _ :: _, [], _, _, hl => hl.elim
  | f :: fs, l :: ls, ds, h, hl => by
    obtain ⟨h1, h2⟩ := hl
    rw [declsOf_cons] at h ⊢
    cases hf : f.bind cRead with
    | none => rw [hf] at h; simp at h
    | some d =>
      cases hfs : declsOf fs with
      | none => rw [hf, hfs] at h; simp at h
      | some ds1 =>
        rw [hf, hfs] at h
        simp at h
        rcases declsOf_left fs ls ds1 hfs h2 with hn | ⟨ds2, hs, hsub⟩
        · left; rw [hn]; cases l.bind cRead <;> rfl
        · rcases h1 with rfl | ⟨text, rest, rfl, rfl⟩
          · left; rfl
          · rcases cRead_prefix (cut := text) (by simpa using hf) (List.prefix_append text rest) with hc | ⟨j, hc⟩
            · left; rw [Option.bind_some, hc]; rfl
            · right
              refine ⟨d.take j ++ ds2, by rw [Option.bind_some, hc, hs]; rfl, ?_⟩
              rw [← h]
              exact List.Sublist.append (List.take_sublist j d) hsub

theorem filter_left {p : CDecl → Bool} {ds ds' : List CDecl} {d : CDecl} (hs : ds'.Sublist ds) (h : ds.filter p = [d]) :
    ds'.filter p = [] ∨ ds'.filter p = [d] := by
  have := hs.filter p
  rw [h] at this
  exact List.sublist_singleton.1 this

theorem linkBytes_left {nspace name : List Byte} {ds ds' : List CDecl} {v : List Byte} (hs : ds'.Sublist ds) (h : linkBytes nspace name ds = some v) :
    linkBytes nspace name ds' = none ∨ linkBytes nspace name ds' = some v := by
  rw [linkBytes] at h ⊢
  split at h
  · rename_i d hd
    rcases filter_left hs hd with e | e
    · left; rw [e]
    · right; rw [e]; exact h
  · simp at h

theorem linkWords_left {nspace name : List Byte} {ds ds' : List CDecl} {v : List Nat} (hs : ds'.Sublist ds) (h : linkWords nspace name ds = some v) :
    linkWords nspace name ds' = none ∨ linkWords nspace name ds' = some v := by
  rw [linkWords] at h ⊢
  split at h
  · rename_i d hd
    rcases filter_left hs hd with e | e
    · left; rw [e]
    · right; rw [e]; exact h
  · simp at h

theorem linkNumber_left {nspace name : List Byte} {ds ds' : List CDecl} {v : Nat} (hs : ds'.Sublist ds) (h : linkNumber nspace name ds = some v) :
    linkNumber nspace name ds' = none ∨ linkNumber nspace name ds' = some v := by
  rw [linkNumber] at h ⊢
  split at h
  · rename_i hd
    rcases filter_left hs hd with e | e
    · left; rw [e]
    · right; rw [e]; exact h
  · simp at h

/-- **C82, Russian.**  Files that link to a library; of each of them all, the first bytes, or nothing is left: they link to the same library or not at all. -/
theorem C82_russian {nspace : List Byte} {files left : List (Option (List Byte))} {library : RusImages × List Byte}
    (h : linkRus nspace files = some library) (hl : LeftOver files left) : linkRus nspace left = none ∨ linkRus nspace left = some library := by
  rw [linkRus] at h ⊢
  cases hd : declsOf files with
  | none => rw [hd] at h; simp at h
  | some ds =>
    rw [hd] at h
    simp only [Option.bind_eq_bind, Option.bind_some, Option.pure_def] at h ⊢
    rcases declsOf_left _ _ _ hd hl with hn | ⟨ds', hs, hsub⟩
    · left; rw [hn]; rfl
    · rw [hs]
      simp only [Option.bind_some]
      simp only [Option.bind_eq_some_iff] at h
      obtain ⟨v1, h1, v2, h2, v3, h3, v4, h4, v5, h5, v6, h6, h7⟩ := h
      rcases linkBytes_left hsub h1 with e | e <;> rw [e]
      · exact Or.inl rfl
      rcases linkBytes_left hsub h2 with e | e <;> rw [e]
      · exact Or.inl rfl
      rcases linkBytes_left hsub h3 with e | e <;> rw [e]
      · exact Or.inl rfl
      rcases linkBytes_left hsub h4 with e | e <;> rw [e]
      · exact Or.inl rfl
      rcases linkBytes_left hsub h5 with e | e <;> rw [e]
      · exact Or.inl rfl
      rcases linkBytes_left hsub h6 with e | e <;> rw [e]
      · exact Or.inl rfl
      exact Or.inr h7

/-- **C82, English.** -/
theorem C82_english {nspace : List Byte} {files left : List (Option (List Byte))} {library : Images}
    (h : linkEng nspace files = some library) (hl : LeftOver files left) : linkEng nspace left = none ∨ linkEng nspace left = some library := by
  rw [linkEng] at h ⊢
  cases hd : declsOf files with
  | none => rw [hd] at h; simp at h
  | some ds =>
    rw [hd] at h
    simp only [Option.bind_eq_bind, Option.bind_some, Option.pure_def] at h ⊢
    rcases declsOf_left _ _ _ hd hl with hn | ⟨ds', hs, hsub⟩
    · left; rw [hn]; rfl
    · rw [hs]
      simp only [Option.bind_some]
      simp only [Option.bind_eq_some_iff] at h
      obtain ⟨v1, h1, v2, h2, v3, h3, v4, h4, h7⟩ := h
      rcases linkBytes_left hsub h1 with e | e <;> rw [e]
      · exact Or.inl rfl
      rcases linkBytes_left hsub h2 with e | e <;> rw [e]
      · exact Or.inl rfl
      rcases linkBytes_left hsub h3 with e | e <;> rw [e]
      · exact Or.inl rfl
      rcases linkBytes_left hsub h4 with e | e <;> rw [e]
      · exact Or.inl rfl
      exact Or.inr h7

/-- **C82, the fuzzy analyser.** -/
theorem C82_fuzzy {nspace : List Byte} {file left : Option (List Byte)} {library : FuzzyImages}
    (h : linkFuzzy nspace file = some library) (hl : LeftOf file left) : linkFuzzy nspace left = none ∨ linkFuzzy nspace left = some library := by
  rw [linkFuzzy] at h ⊢
  cases hd : declsOf [file] with
  | none => rw [hd] at h; simp at h
  | some ds =>
    rw [hd] at h
    simp only [Option.bind_eq_bind, Option.bind_some, Option.pure_def] at h ⊢
    rcases declsOf_left _ [left] _ hd ⟨hl, trivial⟩ with hn | ⟨ds', hs, hsub⟩
    · left; rw [hn]; rfl
    · rw [hs]
      simp only [Option.bind_some]
      simp only [Option.bind_eq_some_iff] at h
      obtain ⟨v1, h1, v2, h2, h⟩ := h
      rcases linkWords_left hsub h1 with e | e <;> rw [e]
      · exact Or.inl rfl
      rcases linkNumber_left hsub h2 with e | e <;> rw [e]
      · exact Or.inl rfl
      simp only [Option.bind_some]
      split at h
      · rename_i hc
        rw [if_pos hc]
        simp only [Option.bind_eq_some_iff] at h
        obtain ⟨v3, h3, v4, h4, h7⟩ := h
        rcases linkBytes_left hsub h3 with e | e <;> rw [e]
        · exact Or.inl rfl
        rcases linkBytes_left hsub h4 with e | e <;> rw [e]
        · exact Or.inl rfl
        exact Or.inr h7
      · simp at h

/-- The compilers: whatever is left of the files they write for a dictionary, the library is the whole dictionary or is not built. -/
theorem C82_compiled_russian {nspace ftab mtab : List Byte} {as : List RusArticle} {st : RusState} (hs : nspace = [] ∨ CPath nspace)
    (h : rusBuild ftab mtab as = some st) (hne : as ≠ []) (hf : ∀ b ∈ ftab, b < 256) (hm : ∀ b ∈ mtab, b < 256) (hm0 : mtab ≠ [])
    (hp : ∀ a ∈ as, ∀ b ∈ a.post, b < 256) (l1 : (st.images mtab).stemtree.length < 2 ^ 32) (l2 : (st.images mtab).flexTree.length < 2 ^ 32)
    (l3 : mtab.length < 2 ^ 32) (l4 : (st.images mtab).classmap.length < 2 ^ 32) (l5 : (st.images mtab).lidstree.length < 2 ^ 32)
    {left : List (Option (List Byte))} (hl : LeftOver (rusLibrary nspace mtab st) left) :
    linkRus nspace left = none ∨ linkRus nspace left = some (st.images mtab, mixTypes) :=
  C82_russian (C80_russian hs h hne hf hm hm0 hp l1 l2 l3 l4 l5) hl

theorem C82_compiled_english {nspace : List Byte} {as : List Article} (hs : nspace = [] ∨ CPath nspace) (hne : as ≠ []) (hp : ∀ a ∈ as, ∀ b ∈ a.post, b < 256)
    (l1 : (engBuild as).images.stemtree.length < 2 ^ 32) (l2 : (engBuild as).images.flexTree.length < 2 ^ 32) (l4 : (engBuild as).images.classmap.length < 2 ^ 32)
    (l5 : (engBuild as).images.lidstree.length < 2 ^ 32) {left : List (Option (List Byte))} (hl : LeftOver (engLibrary nspace (engBuild as)) left) :
    linkEng nspace left = none ∨ linkEng nspace left = some (engBuild as).images :=
  C82_english (C80_english hs hne hp l1 l2 l4 l5) hl

end Libmorph

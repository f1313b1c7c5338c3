import Verif.Props.C78
import Verif.Lemmas.ImageBytes
import Verif.Spec.Link
import Verif.Spec.Russian
import Verif.Spec.English
import Verif.Spec.Fuzzy
import Verif.Lemmas.FuzzyMap
/-
C80: the library built from the files a compiler writes runs on the images the compiler made.
-/
namespace Libmorph
open Spec

theorem isName {s : List Byte} (h0 : s ≠ []) (h1 : isDecDigit (s.headD 0) = false) (h2 : ∀ c ∈ s, isWordChar c = true)
    (h3 : s ∉ [[99, 104, 97, 114], [117, 110, 115, 105, 103, 110, 101, 100], [110, 97, 109, 101, 115, 112, 97, 99, 101]]) : CName s := by
  refine ⟨⟨?_, h2⟩, h3⟩
  cases s with
  | nil => exact absurd rfl h0
  | cons c t => exact ⟨c, t, rfl, h1⟩

/-- One of the files. -/
theorem readFile {license nspace name image : List Byte} (hl : NoTokens license) (hs : nspace = [] ∨ CPath nspace) (hn : CName name) (hne : image ≠ [])
    (hlen : image.length < 2 ^ 32) (hb : AllBytes image) :
    ((imageFile license nspace name [image]).bind cRead) = some [⟨scopeOf nspace, name, 8, true, image⟩] := by
  have e : [image].flatten = image := by simp
  obtain ⟨text, h1, h2⟩ := C78_array (pieces := [image]) (Or.inr hl) hs hn (by rw [e]; exact hne) (by rw [e]; exact hlen) (by rw [e]; exact hb)
  rw [h1, Option.bind_some, h2, e]

theorem linkBytes_one {nspace name : List Byte} {ds : List CDecl} {v : List Byte}
    (h : ds.filter (fun d => d.scope = scopeOf nspace ∧ d.name = name) = [⟨scopeOf nspace, name, 8, true, v⟩]) :
    linkBytes nspace name ds = some v := by
  rw [linkBytes, h]
  simp

/-- **C80, Russian.**  The files written for a dictionary, compiled and linked, give the library the images of the dictionary and the table of kinds of alternation. -/
theorem C80_russian {nspace ftab mtab : List Byte} {as : List RusArticle} {st : RusState} (hs : nspace = [] ∨ CPath nspace) (h : rusBuild ftab mtab as = some st)
    (hne : as ≠ []) (hf : ∀ b ∈ ftab, b < 256) (hm : ∀ b ∈ mtab, b < 256) (hm0 : mtab ≠ []) (hp : ∀ a ∈ as, ∀ b ∈ a.post, b < 256)
    (l1 : (st.images mtab).stemtree.length < 2 ^ 32) (l2 : (st.images mtab).flexTree.length < 2 ^ 32) (l3 : mtab.length < 2 ^ 32)
    (l4 : (st.images mtab).classmap.length < 2 ^ 32) (l5 : (st.images mtab).lidstree.length < 2 ^ 32) :
    linkRus nspace (rusLibrary nspace mtab st) = some (st.images mtab, mixTypes) := by
  obtain ⟨b1, b2, b3, b4, n2⟩ := rusImages_bytes hf hm hp h
  have r1 := readFile (name := cText "mxTables") C78_license.1 hs (isName (by decide) (by decide) (by decide) (by decide)) hm0 l3 hm
  have r2 := readFile (name := cText "flexTree") C78_license.1 hs (isName (by decide) (by decide) (by decide) (by decide)) n2 l2 b2
  have r3 := readFile (name := cText "mixTypes") (image := mixTypes) C78_license.1 hs (isName (by decide) (by decide) (by decide) (by decide)) (by decide) (by decide) (by unfold AllBytes; decide)
  have r4 := readFile (name := cText "classmap") C78_license.1 hs (isName (by decide) (by decide) (by decide) (by decide)) (rusClassmap_ne h hne) l4 b3
  have r5 := readFile (name := cText "stemtree") (image := (st.images mtab).stemtree) C78_license.1 hs (isName (by decide) (by decide) (by decide) (by decide)) treeSer_ne l1 b1
  have r6 := readFile (name := cText "lidstree") (image := (st.images mtab).lidstree) C78_license.1 hs (isName (by decide) (by decide) (by decide) (by decide)) treeSer_ne l5 b4
  have hd : declsOf (rusLibrary nspace mtab st) = some [⟨scopeOf nspace, cText "mxTables", 8, true, mtab⟩,
      ⟨scopeOf nspace, cText "flexTree", 8, true, (st.images mtab).flexTree⟩, ⟨scopeOf nspace, cText "mixTypes", 8, true, mixTypes⟩,
      ⟨scopeOf nspace, cText "classmap", 8, true, (st.images mtab).classmap⟩, ⟨scopeOf nspace, cText "stemtree", 8, true, (st.images mtab).stemtree⟩,
      ⟨scopeOf nspace, cText "lidstree", 8, true, (st.images mtab).lidstree⟩] := by
    rw [declsOf, rusLibrary]
    simp only [List.mapM_cons, List.mapM_nil, r2, r3, r4, r5, r6, show (st.images mtab).mxTables = mtab from rfl, r1]
    rfl
  rw [linkRus, hd]
  simp only [Option.bind_eq_bind, Option.bind_some]
  rw [linkBytes_one (v := (st.images mtab).stemtree), linkBytes_one (v := (st.images mtab).flexTree), linkBytes_one (v := mtab),
    linkBytes_one (v := (st.images mtab).classmap), linkBytes_one (v := (st.images mtab).lidstree), linkBytes_one (v := mixTypes)]
  · rfl
  all_goals
    simp only [List.filter_cons, scopeOf, true_and]
    rfl

/-- **C80, English.** -/
theorem C80_english {nspace : List Byte} {as : List Article} (hs : nspace = [] ∨ CPath nspace) (hne : as ≠ []) (hp : ∀ a ∈ as, ∀ b ∈ a.post, b < 256)
    (l1 : (engBuild as).images.stemtree.length < 2 ^ 32) (l2 : (engBuild as).images.flexTree.length < 2 ^ 32) (l4 : (engBuild as).images.classmap.length < 2 ^ 32)
    (l5 : (engBuild as).images.lidstree.length < 2 ^ 32) :
    linkEng nspace (engLibrary nspace (engBuild as)) = some (engBuild as).images := by
  obtain ⟨b1, b2, b3, b4⟩ := engImages_bytes hp
  have r2 := readFile (name := cText "flexTree") C78_license.2 hs (isName (by decide) (by decide) (by decide) (by decide)) (by show [70, 76, 69, 88] ++ _ ≠ []; simp) l2 b2
  have r4 := readFile (name := cText "classmap") C78_license.2 hs (isName (by decide) (by decide) (by decide) (by decide)) (engClassmap_ne hne) l4 b3
  have r5 := readFile (name := cText "stemtree") (image := (engBuild as).images.stemtree) C78_license.2 hs (isName (by decide) (by decide) (by decide) (by decide)) treeSer_ne l1 b1
  have r6 := readFile (name := cText "lidstree") (image := (engBuild as).images.lidstree) C78_license.2 hs (isName (by decide) (by decide) (by decide) (by decide)) treeSer_ne l5 b4
  have hd : declsOf (engLibrary nspace (engBuild as)) = some [⟨scopeOf nspace, cText "flexTree", 8, true, (engBuild as).images.flexTree⟩,
      ⟨scopeOf nspace, cText "classmap", 8, true, (engBuild as).images.classmap⟩, ⟨scopeOf nspace, cText "stemtree", 8, true, (engBuild as).images.stemtree⟩,
      ⟨scopeOf nspace, cText "lidstree", 8, true, (engBuild as).images.lidstree⟩] := by
    rw [declsOf, engLibrary]
    simp only [List.mapM_cons, List.mapM_nil, r2, r4, r5, r6]
    rfl
  rw [linkEng, hd]
  simp only [Option.bind_eq_bind, Option.bind_some]
  rw [linkBytes_one (v := (engBuild as).images.stemtree), linkBytes_one (v := (engBuild as).images.flexTree),
    linkBytes_one (v := (engBuild as).images.classmap), linkBytes_one (v := (engBuild as).images.lidstree)]
  · rfl
  all_goals
    simp only [List.filter_cons, scopeOf, true_and]
    rfl

/-! ### The fuzzy analyser -/

mutual
/-- A tree of bytes. -/
def PTree.Text : PTree → Prop
  | .node key val kids => (∀ b ∈ key, b < 256) ∧ (∀ l, val = some l → ∀ r ∈ l, r.form < 256) ∧ PTree.Texts kids
def PTree.Texts : List PTree → Prop
  | [] => True
  | t :: ts => t.Text ∧ PTree.Texts ts
end

theorem refsSer_bytes {l : List FuzzyRef} (h : ∀ r ∈ l, r.form < 256) : AllBytes (refsSer l) := by
  refine .app (putserial_bytes _) (.flat fun x hx => ?_)
  obtain ⟨r, hr, rfl⟩ := List.mem_map.1 hx
  exact .app (.app (putserial_bytes _) (putserial_bytes _)) (.cons (h r hr) .nil)

mutual
theorem PTree.ser_bytes : ∀ {t : PTree}, t.Text → AllBytes t.ser
  | .node key val kids, h => by
    rw [PTree.Text] at h
    rw [PTree.ser]
    have hv : AllBytes ((val.map refsSer).getD []) := by
      cases val with
      | none => exact .nil
      | some l => exact refsSer_bytes (h.2.1 l rfl)
    have hk := PTree.sers_bytes h.2.2
    exact .app (.app (.app (.app (putserial_bytes _) (putserial_bytes _)) h.1) (putserial_bytes _)) (.app hk hv)
theorem PTree.sers_bytes : ∀ {ts : List PTree}, PTree.Texts ts → AllBytes (PTree.sers ts)
  | [], _ => .nil
  | t :: ts, h => by
    rw [PTree.Texts] at h
    rw [PTree.sers]
    exact .app (PTree.ser_bytes h.1) (PTree.sers_bytes h.2)
end

/-- A class of bytes. -/
structure FuzzyClass.Text (c : FuzzyClass) : Prop where
  part : c.partSp < 256
  flexes : ∀ f ∈ c.flexes, f.1 < 256 ∧ ∀ b ∈ f.2, b < 256
  models : ∀ m ∈ c.models, m.s0 < 256 ∧ m.s1 < 256 ∧ ∀ b ∈ m.sample, b < 256

theorem FuzzyClass.ser_bytes {c : FuzzyClass} (h : c.Text) : AllBytes c.ser := by
  rw [FuzzyClass.ser]
  refine .app (.app (.cons h.part (.cons (by split <;> omega) .nil)) (.app (putserial_bytes _) (.flat fun x hx => ?_))) (.app (putserial_bytes _) (.flat fun x hx => ?_))
  · obtain ⟨f, hf, rfl⟩ := List.mem_map.1 hx
    obtain ⟨h1, h2⟩ := h.flexes f hf
    exact .cons h1 (.cons (Nat.mod_lt _ (by omega)) (AllBytes.take h2 _))
  · obtain ⟨m, hm, rfl⟩ := List.mem_map.1 hx
    have hm : m ∈ c.models := by
      rw [sortModels, List.mem_insertionSort] at hm
      exact hm
    obtain ⟨h1, h2, h3⟩ := h.models m hm
    exact .app (.app (.cons h1 (.cons h2 .nil)) (putserial_bytes _)) (.app (putserial_bytes _) h3)

/-- The declarations of the file of the fuzzy analyser. -/
theorem fuzzyFile_decls {nspace : List Byte} {cs : List FuzzyClass} {t : PTree} (hs : nspace = [] ∨ CPath nspace) (hne : cs ≠ []) (hc : ∀ c ∈ cs, c.Text) (ht : t.Text)
    (l1 : (fuzzyImages cs t).tables.length < 2 ^ 32) (l2 : (fuzzyImages cs t).reverse.length < 2 ^ 32) :
    declsOf [fuzzyFile nspace (cs.map FuzzyClass.ser) [t.ser]] = some [
      ⟨scopeOf nspace, cText "ClassNumber", 32, false, [(cs.map FuzzyClass.ser).length]⟩,
      ⟨scopeOf nspace, cText "ClassOffset", 32, true, fuzzyOffsets 0 (cs.map FuzzyClass.ser)⟩,
      ⟨scopeOf nspace, cText "ClassTables", 8, true, (cs.map FuzzyClass.ser).flatten⟩,
      ⟨scopeOf nspace, cText "ReverseDict", 8, true, t.ser⟩] := by
  have hser : ∀ c : FuzzyClass, c.ser ≠ [] := fun c => by rw [FuzzyClass.ser]; simp
  have htser : t.ser ≠ [] := by
    cases t with
    | node key val kids =>
      rw [PTree.ser]
      have : putserial key.length ≠ [] := by rw [putserial]; split <;> simp
      simp [this]
  have e : [t.ser].flatten = t.ser := by simp
  obtain ⟨text, h1, h2⟩ := C78_fuzzy (nspace := nspace) (records := cs.map FuzzyClass.ser) (dict := [t.ser]) hs (by simpa using hne)
    (fun r hr => by
      obtain ⟨c, _, rfl⟩ := List.mem_map.1 hr
      exact hser c) l1 (AllBytes.flat fun r hr => by
      obtain ⟨c, hc', rfl⟩ := List.mem_map.1 hr
      exact FuzzyClass.ser_bytes (hc c hc')) (by rw [e]; exact htser) (by rw [e]; exact l2) (by rw [e]; exact PTree.ser_bytes ht)
  rw [e] at h2
  rw [declsOf]
  simp only [List.mapM_cons, List.mapM_nil, h1, Option.bind_some, h2]
  rfl

/-- **C80, the fuzzy analyser.**  The file written for a list of classes, compiled and linked, gives the analyser the images made of the classes. -/
theorem C80_fuzzy {nspace : List Byte} {cs : List FuzzyClass} {t : PTree} (hs : nspace = [] ∨ CPath nspace) (hne : cs ≠ []) (hc : ∀ c ∈ cs, c.Text) (ht : t.Text)
    (l1 : (fuzzyImages cs t).tables.length < 2 ^ 32) (l2 : (fuzzyImages cs t).reverse.length < 2 ^ 32) :
    linkFuzzy nspace (fuzzyFile nspace (cs.map FuzzyClass.ser) [t.ser]) = some (fuzzyImages cs t) := by
  rw [linkFuzzy, fuzzyFile_decls hs hne hc ht l1 l2]
  simp only [Option.bind_eq_bind, Option.bind_some]
  have w : linkWords nspace (cText "ClassOffset") [
      ⟨scopeOf nspace, cText "ClassNumber", 32, false, [(cs.map FuzzyClass.ser).length]⟩,
      ⟨scopeOf nspace, cText "ClassOffset", 32, true, fuzzyOffsets 0 (cs.map FuzzyClass.ser)⟩,
      ⟨scopeOf nspace, cText "ClassTables", 8, true, (cs.map FuzzyClass.ser).flatten⟩,
      ⟨scopeOf nspace, cText "ReverseDict", 8, true, t.ser⟩] = some (fuzzyOffsets 0 (cs.map FuzzyClass.ser)) := by
    rw [linkWords]
    simp only [List.filter_cons, scopeOf, true_and]
    rfl
  have w2 : linkNumber nspace (cText "ClassNumber") [
      ⟨scopeOf nspace, cText "ClassNumber", 32, false, [(cs.map FuzzyClass.ser).length]⟩,
      ⟨scopeOf nspace, cText "ClassOffset", 32, true, fuzzyOffsets 0 (cs.map FuzzyClass.ser)⟩,
      ⟨scopeOf nspace, cText "ClassTables", 8, true, (cs.map FuzzyClass.ser).flatten⟩,
      ⟨scopeOf nspace, cText "ReverseDict", 8, true, t.ser⟩] = some (cs.map FuzzyClass.ser).length := by
    rw [linkNumber]
    simp only [List.filter_cons, scopeOf, true_and]
    rfl
  rw [w, w2]
  simp only [Option.bind_some, fuzzyOffsets_length, if_true]
  rw [linkBytes_one (v := t.ser), linkBytes_one (v := (cs.map FuzzyClass.ser).flatten)]
  · rfl
  all_goals
    simp only [List.filter_cons, scopeOf, true_and]
    rfl

end Libmorph

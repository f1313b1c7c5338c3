import Verif.Lemmas.WildTwo
import Verif.Props.C83Ex
/-
C83 for FindMatch: a wildcard search answers the same in whatever order the articles were compiled.
-/
namespace Libmorph
open Spec

section
variable {A A' : List Byte} {D D' : RusDict} {st st' : RusState}

theorem TwoOrders.wildOk (t : TwoOrders D D') (hw : RusWildOk D) : RusWildOk { D' with alts := D.alts } where
  ends := fun a ha hi => by have := hw.ends a (t.arts.perm.mem_iff.2 ha) hi; rw [← t.ftab] at this; exact this
  mixes := fun a ha => hw.mixes a (t.arts.perm.mem_iff.2 ha)
  posts := fun a ha => hw.posts a (t.arts.perm.mem_iff.2 ha)
  stems := fun a ha => hw.stems a (t.arts.perm.mem_iff.2 ha)
  bare := fun a ha => hw.bare a (t.arts.perm.mem_iff.2 ha)
  short := fun a ha hi => by have := hw.short a (t.arts.perm.mem_iff.2 ha) hi; rw [← t.ftab] at this; exact this
  ids := fun a ha => hw.ids a (t.arts.perm.mem_iff.2 ha)

/-- The scan by a template, in two dictionaries and two stacks, with any way to take the forms down. -/
theorem rus_wild_scans (t : TwoOrders D D') (h : RusOk A D st) (h' : RusOk A' D' st') (hw : RusWildOk D)
    (tail tail' smatch smatch' : List Byte) (htail : tail ≠ []) (htail' : tail' ≠ []) (hbuf : smatch.length = 48) (hbuf' : smatch'.length = 48)
    (reg : Nat × StrMatch → MatchSt → Option MatchSt) (T : List Byte) :
    (wildScan (rusWildTarget (st.images D.mtab) (regOf reg)) ((st.images D.mtab).stemtree ++ tail) T (smatch, {})).map (fun x => (x.1, x.2.2)) =
    (wildScan (rusWildTarget (st'.images D'.mtab) (regOf reg)) ((st'.images D'.mtab).stemtree ++ tail') T (smatch', {})).map (fun x => (x.1, x.2.2)) := by
  have t2 : TwoOrders D { D' with alts := D.alts } := ⟨t.ftab, t.mtab, t.arts⟩
  have h2 := t.withAlts h h'
  have hw2 := t.wildOk hw
  have hex : ∀ (a : RusArticle) (r : List Byte), ∃ E : List (Nat × StrMatch), a ∈ D.arts → ∀ (σ : Type) (reg : Nat × StrMatch → σ → Option σ),
      Emits 48 reg a.stem (rusWildTarget (st.images D.mtab) (regOf reg) a.id (st.entryFor D a).oclass r a.post a.stem.length) E ∧
      Emits 48 reg a.stem (rusWildTarget (st'.images D'.mtab) (regOf reg) a.id (st'.entryFor D' a).oclass r a.post a.stem.length) E := by
    intro a r
    by_cases ha : a ∈ D.arts
    · obtain ⟨E, hE⟩ := rusTarget_two t2 rfl h h2 hw hw2 ha r
      exact ⟨E, fun _ => hE⟩
    · exact ⟨[], fun k => absurd k ha⟩
  choose EV hEV using hex
  have himg : (st.images D.mtab).stemtree = stemImage (fileAll (D.arts.map fun a => (a.stem, st.entryFor D a))) := by
    rw [← h.entries]; rfl
  have himg' : (st'.images D'.mtab).stemtree = stemImage (fileAll (D'.arts.map fun a => (a.stem, st'.entryFor D' a))) := by
    rw [← h'.entries]; rfl
  obtain ⟨E, hE⟩ := wild_two (cap := 48) (t.arts.mono fun a _ b _ hab => ⟨hab.1, hab.2.1.2.2.1, hab.2.1.2.2.2, hab.2.2⟩) (fun a _ => entry_recl t a)
    h.dict h'.dict
    (fun σ reg => rusWildTarget (st.images D.mtab) (regOf reg)) (fun σ reg => rusWildTarget (st'.images D'.mtab) (regOf reg)) (EV := EV) (by omega)
    (fun a ha r σ reg => hEV a r ha σ reg) hw.stems tail tail' htail htail' T
  obtain ⟨e1, e2⟩ := hE _ reg
  have e1 := e1 smatch {} hbuf (List.nil_prefix)
  have e2 := e2 smatch' {} hbuf' (List.nil_prefix)
  rw [himg, himg']
  cases hf : E.foldlM (fun s e => reg e s) ({} : MatchSt) with
  | none =>
    rw [hf] at e1 e2
    rw [show wildScan _ _ _ _ = none from e1, show wildScan _ _ _ _ = none from e2]
  | some s =>
    rw [hf] at e1 e2
    obtain ⟨b1, e1, -⟩ := e1
    obtain ⟨b2, e2, -⟩ := e2
    rw [e1, e2]
    rfl

/-- **C83** So does FindMatch, for every template: the same calls of the client, with the same forms, in the same order. -/
theorem C83_find_match (t : TwoOrders D D') (h : RusOk A D st) (h' : RusOk A' D' st') (hw : RusWildOk D)
    (tail tail' smatch smatch' : List Byte) (htail : tail ≠ []) (htail' : tail' ≠ []) (hbuf : smatch.length = 48) (hbuf' : smatch'.length = 48)
    (client : List (Nat × List StrMatch) → Int) (str : List Byte) :
    rusFindMatch (st.images D.mtab) tail smatch client str = rusFindMatch (st'.images D'.mtab) tail' smatch' client str := by
  have key := rus_wild_scans t h h' hw tail tail' smatch smatch' htail htail' hbuf hbuf' rusRegE
  rw [← rusReg_eq] at key
  rw [rusFindMatch, rusFindMatch]
  split
  · rfl
  · split
    · rfl
    · simp only [bind]
      cases capGet rusTab formLength str with
      | none => rfl
      | some o =>
        cases o with
        | none => rfl
        | some p =>
          simp only [Option.bind]
          have := key p.1
          revert this
          generalize wildScan (rusWildTarget (st.images D.mtab) rusReg) ((st.images D.mtab).stemtree ++ tail) p.1 (smatch, {}) = x
          generalize wildScan (rusWildTarget (st'.images D'.mtab) rusReg) ((st'.images D'.mtab).stemtree ++ tail') p.1 (smatch', {}) = y
          intro e
          cases x <;> cases y <;> simp only [Option.map_none, Option.map_some, Option.some.injEq, Prod.mk.injEq, reduceCtorEq] at e
          · rfl
          · obtain ⟨k1, k2⟩ := e
            simp only [k1, k2]

/-- The same articles in another order are within the limits where the images are. -/
theorem RusOk.reordered (h : RusOk A D st) {arts' : List RusArticle} (hp : D.arts.Perm arts') (hb : rusBuild D.ftab D.mtab arts' = some st')
    (h1 : st'.classes.length ≤ 0x8000) (h2 : st'.plain.length < 2 ^ 20) (h3 : (st'.images D.mtab).stemtree.length < 2 ^ 32) :
    RusOk A { D with arts := arts' } st' where
  built := hb
  alpha := h.alpha
  letters := h.letters
  stems := fun a ha => h.stems a (hp.mem_iff.2 ha)
  short := fun a ha => h.short a (hp.mem_iff.2 ha)
  ids := fun a ha => h.ids a (hp.mem_iff.2 ha)
  posts := fun a ha => h.posts a (hp.mem_iff.2 ha)
  text := fun a ha => h.text a (hp.mem_iff.2 ha)
  words := fun a ha => h.words a (hp.mem_iff.2 ha)
  prepos := fun a ha => h.prepos a (hp.mem_iff.2 ha)
  plainw := fun a ha => h.plainw a (hp.mem_iff.2 ha)
  refs := fun a ha => h.refs a (hp.mem_iff.2 ha)
  tables := fun a ha => h.tables a (hp.mem_iff.2 ha)
  long := fun a ha => h.long a (hp.mem_iff.2 ha)
  mixes := fun a ha => h.mixes a (hp.mem_iff.2 ha)
  covers := fun a ha => by
    have := h.covers a (hp.mem_iff.2 ha)
    simp only [RusDict.Covered, RusDict.Reads, RusDict.Inflects] at this ⊢
    exact this
  count := by rw [← hp.length_eq]; exact h.count
  classes := h1
  plain := h2
  size := h3
end

/-! A dictionary in two orders: the images differ, the answer to a template is one. -/

theorem c83w_builds : (rusBuild rusSample.ftab rusSample.mtab rusSample.arts.reverse).isSome = true := by decide +kernel
def c83wState : RusState := (rusBuild rusSample.ftab rusSample.mtab rusSample.arts.reverse).get c83w_builds

theorem c83w_ok : RusOk rusSampleLetters { rusSample with arts := rusSample.arts.reverse } c83wState :=
  rusSample_ok.reordered (List.reverse_perm _).symm (Option.some_get _).symm (by decide +kernel) (by decide +kernel) (by decide +kernel)

theorem c83w_orders : TwoOrders rusSample { rusSample with arts := rusSample.arts.reverse } :=
  ⟨rfl, rfl, .of_perm (List.reverse_perm _).symm (by unfold RusArticle.Clash; decide +kernel)⟩

example : (rusSampleState.images rusSample.mtab).classmap ≠ (c83wState.images rusSample.mtab).classmap := by decide +kernel

example (str : List Byte) : rusFindMatch (rusSampleState.images rusSample.mtab) [0] (List.replicate 48 0) (fun _ => 0) str
    = rusFindMatch (c83wState.images rusSample.mtab) [7] (List.replicate 48 0) (fun _ => 0) str :=
  C83_find_match c83w_orders rusSample_ok c83w_ok rusSample_wild [0] [7] _ _ (by simp) (by simp) (by simp) (by simp) _ str

end Libmorph

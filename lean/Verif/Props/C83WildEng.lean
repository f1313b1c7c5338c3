import Verif.Props.C83Wild
import Verif.Props.C83Eng
import Verif.Props.C30
/-
C83 for FindMatch, English.
-/
namespace Libmorph
open Spec

section
variable {A A' : List Byte} {as as' : List Article}

theorem engReg_regOf : engReg = regOf engRegE := by
  funext id text g s
  rw [engReg_eq, regOf]

theorem engOut_any {σ : Type} {cap : Nat} (reg : Nat × StrMatch → σ → Option σ) (id wdinfo : Nat) :
    OutEmits cap reg (engWildOut (regOf reg) id wdinfo) (fun w g => (id, ⟨w, g.idForm⟩)) := by
  intro w g hw buf s hb hpre
  have htake : buf.take w.length = w := by
    obtain ⟨t, rfl⟩ := hpre; simp
  have hl : ¬ buf.length < w.length := by omega
  have hrun : engWildOut (regOf reg) id wdinfo w.length g (buf, s)
      = (reg (id, ⟨w, g.idForm⟩) s).map fun s => (0, (buf, s)) := by
    simp only [engWildOut, hl, if_false, htake, regOf, bind]
    cases reg (id, ⟨w, g.idForm⟩) s <;> rfl
  rw [hrun]
  simp only [List.foldlM_cons, List.foldlM_nil, bind]
  cases reg (id, ⟨w, g.idForm⟩) s with
  | none => rfl
  | some s' => exact ⟨buf, rfl, hb, hpre⟩

theorem engTarget_any (h : EngOk A as) (hw : WildOk as) {a : Article} (ha : a ∈ as) (r : List Byte)
    {σ : Type} (reg : Nat × StrMatch → σ → Option σ) :
    Emits 48 reg a.lowStem
      (engWildTarget (engBuild as).images (regOf reg) ((engBuild as).entryFor a).nlexid ((engBuild as).entryFor a).oclass r
        ((engBuild as).entryFor a).stpost a.lowStem.length)
      (a.wildEvents ((engBuild as).tableFor a).items r) := by
  obtain ⟨l1, l2⟩ := h.loads ha
  have hst := hw.stems a ha
  by_cases hinf : a.Inflected
  · obtain ⟨t1, rest, t2⟩ := l2.table hinf
    have ht := l2.tableOf hinf
    have hlen : ((engBuild as).tableFor a).items.length < 256 := by
      rw [ht.perm.length_eq, List.length_map]; exact h.few a ha
    have hft : StemInfo.flexTable ((engBuild as).infoFor a) (engBuild as).images.flexTree = some (((engBuild as).tableFor a).ser ++ rest) := by
      rw [StemInfo.flexTable, if_pos t1, t2]
    have hloop := engFlexLoop_ser (w := a.lowStem) (cap := 48) (engOut_any reg a.id ((engBuild as).infoFor a).wdinfo) r a.post rest
      (hw.posts a ha) ((engBuild as).tableFor a).items (by
        intro x hx
        obtain ⟨p, hp, rfl⟩ := List.mem_map.1 (ht.perm.mem_iff.1 hx)
        refine ⟨(h.ends a ha p hp).1, ?_, hw.ends a ha p hp⟩
        have := hw.short a ha ⟨a.lowStem ++ p.1 ++ a.post, p.2⟩ (by rw [Article.wildForms, if_pos hinf]; exact List.mem_map.2 ⟨p, hp, rfl⟩)
        simp only [List.length_append] at this ⊢
        omega)
    rw [Article.wildEvents, if_pos hinf]
    refine hloop.congr ?_
    intro buf s _ _
    simp only [engWildTarget, l1, hft, bind, Option.bind_some, FTable.ser, List.cons_append, getbyte, Nat.mod_eq_of_lt hlen]
    rfl
  · have hft : StemInfo.flexTable ((engBuild as).infoFor a) (engBuild as).images.flexTree = none := by
      rw [StemInfo.flexTable, if_neg (by simp [l2.plain hinf])]
    rw [Article.wildEvents, if_neg hinf]
    split
    · rename_i hr
      refine (engOut_any reg a.id ((engBuild as).infoFor a).wdinfo a.lowStem ⟨0, 0xff, 0, 0⟩ (by omega)).congr ?_
      intro buf s _ _
      simp only [engWildTarget, l1, hft, bind, Option.bind_some, hr, if_true]
      rfl
    · rename_i hr
      refine Emits.done.congr ?_
      intro buf s _ _
      simp only [engWildTarget, l1, hft, bind, Option.bind_some, hr]
      rfl

theorem WildOk.reordered (hw : WildOk as) (hp : as.Perm as') : WildOk as' where
  ends := fun a ha => hw.ends a (hp.mem_iff.2 ha)
  posts := fun a ha => hw.posts a (hp.mem_iff.2 ha)
  stems := fun a ha => hw.stems a (hp.mem_iff.2 ha)
  short := fun a ha => hw.short a (hp.mem_iff.2 ha)
  ids := fun a ha => hw.ids a (hp.mem_iff.2 ha)
  few := fun id => by
    have := ((hp.filter fun a => a.id = id).flatMap_right Article.wildForms).length_eq
    rw [← this]
    exact hw.few id

/-- **C83** So does FindMatch of an English dictionary, for every template: the same calls of the client, with the same forms, in the same order. -/
theorem C83_english_find_match (t : Moved Article.Clash as as') (h : EngOk A as) (h' : EngOk A' as') (hw : WildOk as)
    (tail tail' smatch smatch' : List Byte) (htail : tail ≠ []) (htail' : tail' ≠ []) (hbuf : smatch.length = 48) (hbuf' : smatch'.length = 48)
    (client : List (Nat × List StrMatch) → Int) (str : List Byte) :
    findMatch (engBuild as).images tail smatch client str = findMatch (engBuild as').images tail' smatch' client str := by
  have hw' := hw.reordered t.perm
  have himg : (engBuild as).images.stemtree = stemImage (fileAll (as.map fun a => (a.lowStem, (engBuild as).entryFor a))) := by
    rw [← engBuild_entries]; rfl
  have himg' : (engBuild as').images.stemtree = stemImage (fileAll (as'.map fun a => (a.lowStem, (engBuild as').entryFor a))) := by
    rw [← engBuild_entries]; rfl
  have d := h.dict
  have d' := h'.dict
  rw [engBuild_entries] at d d'
  have key : ∀ T : List Byte,
      (wildScan (engWildTarget (engBuild as).images engReg) ((engBuild as).images.stemtree ++ tail) T (smatch, {})).map (fun x => (x.1, x.2.2)) =
      (wildScan (engWildTarget (engBuild as').images engReg) ((engBuild as').images.stemtree ++ tail') T (smatch', {})).map (fun x => (x.1, x.2.2)) := by
    intro T
    obtain ⟨E, hE⟩ := wild_two (stem := Article.lowStem) (cap := 48) (t.mono fun a _ b _ hab => ⟨hab.1, hab.2.1.2.2.1, hab.2.1.2.2.2, hab.2.2⟩)
      (fun a ha => eng_entry_recl h h' ha (t.perm.mem_iff.1 ha)) d d'
      (fun σ reg => engWildTarget (engBuild as).images (regOf reg)) (fun σ reg => engWildTarget (engBuild as').images (regOf reg))
      (EV := fun a r => a.wildEvents ((engBuild as).tableFor a).items r) (by omega)
      (fun a ha r σ reg => ⟨engTarget_any h hw ha r reg, by
        have ha' := t.perm.mem_iff.1 ha
        refine (engTarget_any h' hw' ha' r reg).of_eq ?_
        by_cases hinf : a.Inflected
        · rw [(eng_tables h' ha' hinf).1, (eng_tables h ha hinf).1]
        · simp only [Article.wildEvents, if_neg hinf]⟩) hw.stems tail tail' htail htail' T
    obtain ⟨e1, e2⟩ := hE _ engRegE
    have e1 := e1 smatch {} hbuf (List.nil_prefix)
    have e2 := e2 smatch' {} hbuf' (List.nil_prefix)
    rw [himg, himg', engReg_regOf]
    cases hf : E.foldlM (fun s e => engRegE e s) ({} : MatchSt) with
    | none =>
      rw [hf] at e1 e2
      rw [show wildScan _ _ _ _ = none from e1, show wildScan _ _ _ _ = none from e2]
    | some s =>
      rw [hf] at e1 e2
      obtain ⟨b1, e1, -⟩ := e1
      obtain ⟨b2, e2, -⟩ := e2
      rw [e1, e2]
      rfl
  rw [findMatch, findMatch]
  split
  · rfl
  · split
    · rfl
    · simp only [bind]
      cases capGet engTab formLength str with
      | none => rfl
      | some o =>
        cases o with
        | none => rfl
        | some p =>
          simp only [Option.bind]
          have := key p.1
          revert this
          generalize wildScan (engWildTarget (engBuild as).images engReg) ((engBuild as).images.stemtree ++ tail) p.1 (smatch, {}) = x
          generalize wildScan (engWildTarget (engBuild as').images engReg) ((engBuild as').images.stemtree ++ tail') p.1 (smatch', {}) = y
          intro e
          cases x <;> cases y <;> simp only [Option.map_none, Option.map_some, Option.some.injEq, Prod.mk.injEq, reduceCtorEq] at e
          · rfl
          · obtain ⟨k1, k2⟩ := e
            simp only [k1, k2]
end

example (str : List Byte) : findMatch (engBuild engSample).images [0] (List.replicate 48 0) (fun _ => 0) str
    = findMatch (engBuild engSample.reverse).images [7] (List.replicate 48 0) (fun _ => 0) str :=
  C83_english_find_match engBack_moved engSample_ok engBack_ok engSample_wild [0] [7] _ _ (by simp) (by simp) (by simp) (by simp) _ str

end Libmorph

import Verif.Model.ClassTable
namespace Libmorph

variable {α : Type} [DecidableEq α]

/-- Every class stands in the image at its offset; no class twice. -/
structure ClassTable.Inv (ser : α → List Byte) (t : ClassTable α) : Prop where
  len : t.length = (t.image ser).length
  small : t.length ≤ 65535
  keys : (t.clsset.map Prod.fst).Nodup
  at_ : ∀ r ∈ t.clsset, ∃ a b, t.image ser = a ++ ser r.1 ++ b ∧ a.length = r.2
  order : t.clsset.Pairwise fun r q => r.2 + (ser r.1).length ≤ q.2
  below : ∀ r ∈ t.clsset, r.2 + (ser r.1).length ≤ t.length

omit [DecidableEq α] in
theorem ClassTable.inv_init (ser : α → List Byte) : ClassTable.Inv ser ({} : ClassTable α) :=
  ⟨rfl, by simp, by simp, by simp, by simp, by simp⟩

theorem ClassTable.inv_add {ser : α → List Byte} {bufLen : α → Nat} (hlen : ∀ c, (ser c).length = bufLen c)
    {t t' : ClassTable α} {c : α} {o : Nat} (h : t.Inv ser) (ha : t.addClass bufLen c = some (t', o)) :
    t'.Inv ser ∧ (c, o) ∈ t'.clsset ∧ ∀ r ∈ t.clsset, r ∈ t'.clsset := by
  simp only [addClass] at ha
  cases hf : t.clsset.find? (fun r => r.1 = c) with
  | some r =>
    rw [hf] at ha
    simp only [Option.some.injEq, Prod.mk.injEq] at ha
    obtain ⟨rfl, rfl⟩ := ha
    have h1 := List.mem_of_find?_eq_some hf
    have h2 := List.find?_some hf
    simp only [decide_eq_true_eq] at h2
    exact ⟨h, by rw [← h2]; exact h1, fun r hr => hr⟩
  | none =>
    rw [hf] at ha
    rw [List.find?_eq_none] at hf
    simp only at ha
    split at ha
    · simp at ha
    · rename_i hsm
      simp only [Option.some.injEq, Prod.mk.injEq] at ha
      obtain ⟨rfl, rfl⟩ := ha
      have hmod : t.length % 65536 = t.length := Nat.mod_eq_of_lt (by have := h.small; omega)
      have himg : (ClassTable.image ser (⟨t.clsset ++ [(c, t.length % 65536)], t.length + bufLen c⟩ : ClassTable α))
          = t.image ser ++ ser c := by simp [image]
      refine ⟨⟨?_, by simp only; omega, ?_, ?_, ?_, ?_⟩, by simp, by intro r hr; simp [hr]⟩
      · rw [himg]; simp only [List.length_append, hlen, h.len]
      · rw [List.map_append, List.nodup_append]
        refine ⟨h.keys, by simp, ?_⟩
        intro a ha b hb
        simp only [List.map_cons, List.map_nil, List.mem_singleton] at hb
        subst hb
        obtain ⟨p, hp, rfl⟩ := List.mem_map.1 ha
        simpa using hf p hp
      · intro r hr
        rw [himg]
        rcases List.mem_append.1 hr with hr | hr
        · obtain ⟨a, b, h1, h2⟩ := h.at_ r hr
          exact ⟨a, b ++ ser c, by rw [h1]; simp, h2⟩
        · simp only [List.mem_singleton] at hr
          subst hr
          exact ⟨t.image ser, [], by simp, by rw [hmod, h.len]⟩
      · simp only
        rw [List.pairwise_append]
        refine ⟨h.order, by simp, ?_⟩
        intro r hr q hq
        simp only [List.mem_singleton] at hq
        subst hq
        simp only [hmod]
        exact h.below r hr
      · intro r hr
        rcases List.mem_append.1 hr with hr | hr
        · have := h.below r hr; simp only; omega
        · simp only [List.mem_singleton] at hr
          subst hr
          simp only [hmod, hlen]; omega

theorem ClassTable.inv_addAll {ser : α → List Byte} {bufLen : α → Nat} (hlen : ∀ c, (ser c).length = bufLen c)
    {cs : List α} {t t' : ClassTable α} {os : List Nat} (h : t.Inv ser) (ha : ClassTable.addAll bufLen cs t = some (t', os)) :
    t'.Inv ser ∧ os.length = cs.length ∧ (∀ p ∈ cs.zip os, p ∈ t'.clsset) ∧ ∀ r ∈ t.clsset, r ∈ t'.clsset := by
  induction cs generalizing t os with
  | nil =>
    simp only [addAll, Option.some.injEq, Prod.mk.injEq] at ha
    obtain ⟨rfl, rfl⟩ := ha
    exact ⟨h, rfl, by simp, fun r hr => hr⟩
  | cons c cs ih =>
    simp only [addAll, bind, Option.bind_eq_some_iff, Prod.exists, pure, Option.some.injEq, Prod.mk.injEq] at ha
    obtain ⟨t1, o, h1, t2, os', h2, rfl, rfl⟩ := ha
    obtain ⟨k1, k2, k3⟩ := inv_add hlen h h1
    obtain ⟨m1, m2, m3, m4⟩ := ih k1 h2
    refine ⟨m1, by simp [m2], ?_, fun r hr => m4 r (k3 r hr)⟩
    intro p hp
    simp only [List.zip_cons_cons, List.mem_cons] at hp
    rcases hp with rfl | hp
    · exact m4 _ k2
    · exact m3 p hp

end Libmorph

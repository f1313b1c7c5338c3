import Verif.Lemmas.EngWild
/-
Wildcard search in the English analyser: the target and the whole call.
-/
namespace Libmorph

variable {cap : Nat} {w : List Byte}

theorem engOut_emits (id wdinfo : Nat) :
    OutEmits cap engRegE (engWildOut engReg id wdinfo) (fun w g => (id, ⟨w, g.idForm⟩)) := by
  intro w g hw buf s hb hpre
  have htake : buf.take w.length = w := by
    obtain ⟨t, rfl⟩ := hpre; simp
  have hl : ¬ buf.length < w.length := by omega
  have hrun : engWildOut engReg id wdinfo w.length g (buf, s)
      = (engRegE (id, ⟨w, g.idForm⟩) s).map fun s => (0, (buf, s)) := by
    simp only [engWildOut, hl, if_false, htake, engReg_eq, bind]
    cases engRegE (id, ⟨w, g.idForm⟩) s <;> rfl
  rw [hrun]
  simp only [List.foldlM_cons, List.foldlM_nil, bind]
  cases engRegE (id, ⟨w, g.idForm⟩) s with
  | none => rfl
  | some s' => exact ⟨buf, rfl, hb, hpre⟩

theorem flatMap_replicate {α β : Type} (l : List α) (f : α → Nat) (x : β) :
    (l.flatMap fun r => List.replicate (f r) x) = List.replicate (l.map f).sum x := by
  induction l with
  | nil => rfl
  | cons a l ih => rw [List.flatMap_cons, ih, List.map_cons, List.sum_cons, List.replicate_add]

theorem engFlexLoop_ser {σ ε : Type} {reg : ε → σ → Option σ} {out : WildOut σ} {ev : List Byte → Gram → ε} (hout : OutEmits cap reg out ev) (r post tl : List Byte)
    (hp : ∀ c ∈ post, c ≠ 42 ∧ c ≠ 63) :
    ∀ l : List Flex, (∀ x ∈ l, x.szflex.length < 256 ∧ w.length + x.szflex.length + post.length ≤ cap ∧ ∀ c ∈ x.szflex, c ≠ 42 ∧ c ≠ 63) →
      Emits cap reg w (engFlexLoop out r post w.length l.length ((l.map Flex.ser).flatten ++ tl))
        (l.flatMap fun x => List.replicate (wildWays r (x.szflex ++ post)) (ev (w ++ x.szflex ++ post) ⟨0, x.idform, x.idform, 0⟩)) := by
  intro l
  induction l with
  | nil => intro _; exact Emits.done
  | cons x l ih =>
    intro h
    obtain ⟨h1, h2, h3⟩ := h x (by simp)
    rw [List.flatMap_cons]
    have e2 := ih (fun y hy => h y (by simp [hy]))
    let P : List Byte := (l.map Flex.ser).flatten ++ tl
    have e1 : Emits cap reg w
        (if x.szflex.length = 0 then scanSuffix out r post w.length ⟨0, x.idform, x.idform, 0⟩
         else scanString (fun inflex n => scanSuffix out inflex post n ⟨0, x.idform, x.idform, 0⟩) r x.szflex w.length)
        (List.replicate (wildWays r (x.szflex ++ post)) (ev (w ++ x.szflex ++ post) ⟨0, x.idform, x.idform, 0⟩)) := by
      by_cases h0 : x.szflex = []
      · rw [h0]
        simpa using scanSuffix_emits hout ⟨0, x.idform, x.idform, 0⟩ r post w (by omega) hp
      · rw [if_neg (by simpa using h0), wildWays_append, ← flatMap_replicate]
        refine scanString_emits r x.szflex w (by simp only [List.length_append]; omega) h3 ?_
        intro r'
        exact scanSuffix_emits hout _ r' post (w ++ x.szflex) (by simp only [List.length_append]; omega) hp
    refine (e1.seq e2).congr ?_
    intro buf s _ _
    have hcc : x.szflex.length % 256 = x.szflex.length := Nat.mod_eq_of_lt h1
    have hin : (Flex.ser x) ++ P = x.idform :: x.szflex.length :: (x.szflex ++ P) := by simp [Flex.ser, hcc]
    simp only [List.length_cons, List.map_cons, List.flatten_cons, List.append_assoc]
    rw [show Flex.ser x ++ ((l.map Flex.ser).flatten ++ tl) = x.idform :: x.szflex.length :: (x.szflex ++ P) from hin]
    simp only [engFlexLoop, getbyte, bind, Option.bind_some, List.length_append]
    rw [if_neg (by omega), List.take_left, List.drop_left]

/-- The events for an article with its ending table and a rest of the template. -/
def Article.wildEvents (a : Article) (items : List Flex) (r : List Byte) : List (Nat × StrMatch) :=
  if a.Inflected then
    items.flatMap fun x => List.replicate (wildWays r (x.szflex ++ a.post)) (a.id, ⟨a.lowStem ++ x.szflex ++ a.post, x.idform⟩)
  else if r.isEmpty || isAsterisk r then [(a.id, ⟨a.lowStem, 255⟩)] else []

/-- The ending table as it is read. -/
def readFlexes : Nat → List Byte → List Flex
  | 0, _ => []
  | k + 1, p =>
    match p with
    | id :: cc :: p => ⟨p.take cc, id⟩ :: readFlexes k (p.drop cc)
    | _ => []

theorem readFlexes_ser (tl : List Byte) : ∀ l : List Flex, (∀ x ∈ l, x.szflex.length < 256) →
    readFlexes l.length ((l.map Flex.ser).flatten ++ tl) = l := by
  intro l
  induction l with
  | nil => intro _; rfl
  | cons x l ih =>
    intro h
    have h1 := h x (by simp)
    simp only [List.length_cons, List.map_cons, List.flatten_cons, List.append_assoc, Flex.ser, List.cons_append, readFlexes]
    rw [Nat.mod_eq_of_lt h1, List.take_left, List.drop_left, ih fun y hy => h y (by simp [hy])]

/-- The same events in terms of what the run time finds for an entry. -/
def wildEventsOf (im : Images) (e : Entry) (k r : List Byte) : List (Nat × StrMatch) :=
  match loadStem im.classmap e.oclass with
  | none => []
  | some st =>
    match st.flexTable im.flexTree with
    | none => if r.isEmpty || isAsterisk r then [(e.nlexid, ⟨k, 255⟩)] else []
    | some table => (readFlexes (table.headD 0) table.tail).flatMap fun x =>
        List.replicate (wildWays r (x.szflex ++ e.stpost)) (e.nlexid, ⟨k ++ x.szflex ++ e.stpost, x.idform⟩)

theorem table_ends {A : List Byte} {as : List Article} (h : EngOk A as) {a : Article} (ha : a ∈ as) (hinf : a.Inflected) :
    ∀ e i, (∃ x ∈ ((engBuild as).tableFor a).items, x.szflex = e ∧ x.idform = i) ↔ (e, i) ∈ a.endings := by
  intro e i
  have ht := ((h.loads ha).2.tableOf hinf).perm
  have hends := h.ends a ha
  constructor
  · rintro ⟨x, hx, rfl, rfl⟩
    have := ht.mem_iff.1 hx
    obtain ⟨p, hp, rfl⟩ := List.mem_map.1 this
    have := (hends p hp).2
    simp only [Nat.mod_eq_of_lt this]
    exact hp
  · intro hm
    refine ⟨⟨e, i % 256⟩, ht.mem_iff.2 (List.mem_map.2 ⟨_, hm, rfl⟩), rfl, ?_⟩
    exact Nat.mod_eq_of_lt (hends _ hm).2

theorem wildEventsOf_article {A : List Byte} {as : List Article} (h : EngOk A as) {a : Article} (ha : a ∈ as) (r : List Byte) :
    wildEventsOf (engBuild as).images ((engBuild as).entryFor a) a.lowStem r
      = a.wildEvents ((engBuild as).tableFor a).items r := by
  obtain ⟨l1, l2⟩ := h.loads ha
  simp only [wildEventsOf, l1]
  by_cases hinf : a.Inflected
  · obtain ⟨t1, rest, t2⟩ := l2.table hinf
    have ht := l2.tableOf hinf
    have hlen : ((engBuild as).tableFor a).items.length < 256 := by
      rw [ht.perm.length_eq, List.length_map]; exact h.few a ha
    have hsz : ∀ x ∈ ((engBuild as).tableFor a).items, x.szflex.length < 256 := by
      intro x hx
      obtain ⟨p, hp, rfl⟩ := List.mem_map.1 (ht.perm.mem_iff.1 hx)
      exact (h.ends a ha p hp).1
    have hft : StemInfo.flexTable ((engBuild as).infoFor a) (engBuild as).images.flexTree = some (((engBuild as).tableFor a).ser ++ rest) := by
      rw [StemInfo.flexTable, if_pos t1, t2]
    rw [hft]
    simp only [FTable.ser, List.cons_append, List.headD_cons, List.tail_cons, Nat.mod_eq_of_lt hlen, readFlexes_ser rest _ hsz]
    rw [Article.wildEvents, if_pos hinf]
    rfl
  · have hft : StemInfo.flexTable ((engBuild as).infoFor a) (engBuild as).images.flexTree = none := by
      rw [StemInfo.flexTable, if_neg (by simp [l2.plain hinf])]
    rw [hft, Article.wildEvents, if_neg hinf]
    rfl

theorem engTarget_emits {A : List Byte} {as : List Article} (h : EngOk A as) (hw : WildOk as) (hcap : 48 ≤ cap) {a : Article} (ha : a ∈ as) (r : List Byte) :
    Emits cap engRegE a.lowStem
      (engWildTarget (engBuild as).images engReg ((engBuild as).entryFor a).nlexid ((engBuild as).entryFor a).oclass r
        ((engBuild as).entryFor a).stpost a.lowStem.length)
      (a.wildEvents ((engBuild as).tableFor a).items r) := by
  obtain ⟨l1, l2⟩ := h.loads ha
  have hst := hw.stems a ha
  by_cases hinf : a.Inflected
  · obtain ⟨t1, rest, t2⟩ := l2.table hinf
    have ht := l2.tableOf hinf
    have hlen : ((engBuild as).tableFor a).items.length < 256 := by
      rw [ht.perm.length_eq, List.length_map]; exact h.few a ha
    have hft : StemInfo.flexTable ((engBuild as).infoFor a) (engBuild as).images.flexTree = some (((engBuild as).tableFor a).ser ++ rest) := by
      rw [StemInfo.flexTable, if_pos t1, t2]
    have hloop := engFlexLoop_ser (w := a.lowStem) (cap := cap) (engOut_emits a.id ((engBuild as).infoFor a).wdinfo) r a.post rest
      (hw.posts a ha) ((engBuild as).tableFor a).items (by
        intro x hx
        obtain ⟨p, hp, rfl⟩ := List.mem_map.1 (ht.perm.mem_iff.1 hx)
        refine ⟨(h.ends a ha p hp).1, ?_, hw.ends a ha p hp⟩
        have := hw.short a ha ⟨a.lowStem ++ p.1 ++ a.post, p.2⟩ (by rw [Article.wildForms, if_pos hinf]; exact List.mem_map.2 ⟨p, hp, rfl⟩)
        simp only [List.length_append] at this ⊢
        omega)
    rw [Article.wildEvents, if_pos hinf]
    refine hloop.congr ?_
    intro buf s _ _
    simp only [engWildTarget, l1, hft, bind, Option.bind_some, FTable.ser, List.cons_append, getbyte, Nat.mod_eq_of_lt hlen]
    rfl
  · have hft : StemInfo.flexTable ((engBuild as).infoFor a) (engBuild as).images.flexTree = none := by
      rw [StemInfo.flexTable, if_neg (by simp [l2.plain hinf])]
    rw [Article.wildEvents, if_neg hinf]
    split
    · rename_i hr
      refine (engOut_emits a.id ((engBuild as).infoFor a).wdinfo a.lowStem ⟨0, 0xff, 0, 0⟩ (by omega)).congr ?_
      intro buf s _ _
      simp only [engWildTarget, l1, hft, bind, Option.bind_some, hr, if_true]
      rfl
    · rename_i hr
      refine Emits.done.congr ?_
      intro buf s _ _
      simp only [engWildTarget, l1, hft, bind, Option.bind_some, hr]
      rfl

/-! ### The events are the forms to be reported -/

theorem wildMatch_empty {r : List Byte} : WildMatch r [] ↔ (r.isEmpty || isAsterisk r) = true := by
  induction r with
  | nil => simp [WildMatch.nil]
  | cons c r ih =>
    by_cases hc : c = 42
    · subst hc
      rw [wildMatch_star, ih]
      cases r <;> simp [isAsterisk]
    · constructor
      · intro h; cases h; exact absurd rfl hc
      · intro h; simp [isAsterisk, hc] at h

theorem mem_wildEvents {a : Article} {items : List Flex} {r : List Byte} {id : Nat} {m : StrMatch} :
    (id, m) ∈ a.wildEvents items r ↔ id = a.id ∧
      ((a.Inflected ∧ ∃ x ∈ items, m = ⟨a.lowStem ++ x.szflex ++ a.post, x.idform⟩ ∧ WildMatch r (x.szflex ++ a.post)) ∨
       (¬ a.Inflected ∧ m = ⟨a.lowStem, 255⟩ ∧ WildMatch r [])) := by
  simp only [Article.wildEvents]
  by_cases hinf : a.Inflected
  · simp only [hinf, if_true, List.mem_flatMap, List.mem_replicate, ← Nat.pos_iff_ne_zero, wildWays_pos, Prod.mk.injEq,
      true_and, not_true_eq_false, false_and, or_false]
    constructor
    · rintro ⟨x, hx, h1, h2, h3⟩; exact ⟨h2, x, hx, h3, h1⟩
    · rintro ⟨h2, x, hx, h3, h1⟩; exact ⟨x, hx, h1, h2, h3⟩
  · simp only [hinf, if_false, false_and, not_false_eq_true, true_and, false_or, wildMatch_empty]
    split <;> simp [*]

theorem EngOk.bottom {A : List Byte} {as : List Article} (h : EngOk A as) {a : Article} (ha : a ∈ as) (hinf : a.Inflected)
    {e : List Byte} {i : Nat} (hm : (e, i) ∈ a.endings) :
    ((engBuild as).entryFor a).chrmin ≤ e.headD 0 ∧ e.headD 0 ≤ ((engBuild as).entryFor a).chrmax :=
  ((h.loads ha).2.tableOf hinf).bounds _ hm

theorem article_found {A : List Byte} {as : List Article} (h : EngOk A as) {a : Article} (ha : a ∈ as) (T : List Byte) (m : StrMatch) :
    (∃ r, WildRest T a.lowStem r ∧ ((engBuild as).entryFor a).admits r = true ∧
        (a.id, m) ∈ a.wildEvents ((engBuild as).tableFor a).items r) ↔
      m ∈ a.wildForms ∧ WildMatch T m.text ∧
        (a.Inflected → ∃ e, (e, m.id) ∈ a.endings ∧ m.text = a.lowStem ++ e ++ a.post ∧ a.WildSeen T e) := by
  have htop := h.top ha
  by_cases hinf : a.Inflected
  · have hte := table_ends h ha hinf
    simp only [mem_wildEvents, hinf, true_and, true_implies, not_true_eq_false, false_and, or_false, Article.wildForms, if_true]
    constructor
    · rintro ⟨r, h1, h2, x, hx, rfl, h3⟩
      have hm := (hte x.szflex x.idform).1 ⟨x, hx, rfl, rfl⟩
      refine ⟨List.mem_map.2 ⟨_, hm, rfl⟩, ?_, x.szflex, hm, rfl, ?_⟩
      · simp only [List.append_assoc]
        exact h1.matches h3
      · by_cases he : x.szflex = []
        · by_cases hp : a.post = []
          · exact Or.inr (Or.inl hp)
          · refine Or.inr (Or.inr ⟨r, h1, by simpa [he] using h3, ?_⟩)
            intro c hc
            cases r with
            | nil => simp at hc
            | cons d r =>
              simp only [List.head?_cons, Option.some.injEq] at hc
              subst hc
              simp only [Entry.admits, Bool.or_eq_true, isWild, beq_iff_eq, Bool.and_eq_true, decide_eq_true_eq] at h2
              omega
        · exact Or.inl he
    · rintro ⟨hm, hT, e, he, htext, hseen⟩
      have hmatch : WildMatch T (a.lowStem ++ (e ++ a.post)) := by rw [← List.append_assoc, ← htext]; exact hT
      obtain ⟨x, hx, rfl, hxi⟩ := (hte e m.id).2 he
      have hb := h.bottom ha hinf he
      have hmm : m = ⟨a.lowStem ++ x.szflex ++ a.post, x.idform⟩ := by
        cases m; simp only at htext hxi; subst htext hxi; rfl
      by_cases hne : x.szflex ≠ [] ∨ a.post = []
      · obtain ⟨r, h1, h2⟩ := hmatch.rest
        refine ⟨r, h1, ?_, x, hx, hmm, h2⟩
        cases r with
        | nil => rfl
        | cons c r =>
          simp only [Entry.admits, Bool.or_eq_true, isWild, beq_iff_eq, Bool.and_eq_true, decide_eq_true_eq]
          by_cases h42 : c = 42
          · exact Or.inl (Or.inl h42)
          by_cases h63 : c = 63
          · exact Or.inl (Or.inr h63)
          right
          obtain ⟨v, hv, -⟩ := (wildMatch_same h42 h63).1 h2
          rcases hne with hne | hne
          · obtain ⟨b, bs, hbs⟩ := List.exists_cons_of_ne_nil hne
            rw [hbs] at hv hb
            simp only [List.cons_append, List.cons.injEq] at hv
            simp only [List.headD_cons, hv.1] at hb
            exact hb
          · rw [hne, List.append_nil] at hv
            rw [hv] at hb
            exact hb
      · rcases hseen with h0 | h0 | ⟨r, h1, h2, h3⟩
        · exact absurd (Or.inl h0) hne
        · exact absurd (Or.inr h0) hne
        · have he0 : x.szflex = [] := by_contra fun hh => hne (Or.inl hh)
          refine ⟨r, h1, ?_, x, hx, hmm, by simpa [he0] using h2⟩
          cases r with
          | nil => rfl
          | cons c r =>
            simp only [Entry.admits, Bool.or_eq_true, isWild, beq_iff_eq, Bool.and_eq_true, decide_eq_true_eq, htop]
            rw [he0] at hb
            simp only [List.headD_nil] at hb
            have := h3 c rfl
            omega
  · simp only [mem_wildEvents, hinf, false_and, true_and, not_false_eq_true, false_or, Article.wildForms, if_false, List.mem_singleton,
      false_implies, and_true]
    constructor
    · rintro ⟨r, h1, -, rfl, h3⟩
      exact ⟨rfl, by simpa using h1.matches h3⟩
    · rintro ⟨rfl, h2⟩
      obtain ⟨r, h3, h4⟩ := WildMatch.rest (s := a.lowStem) (t := []) (by simpa using h2)
      refine ⟨r, h3, ?_, rfl, h4⟩
      rw [wildMatch_empty] at h4
      cases r with
      | nil => rfl
      | cons c r =>
        simp only [List.isEmpty_cons, Bool.false_or, isAsterisk, List.all_cons, Bool.and_eq_true, beq_iff_eq] at h4
        simp [Entry.admits, isWild, h4.2.1]

/-! ### One call per lexeme -/

theorem visitIds_twice (ids : List Nat) (k : Nat) : visitIds (visitIds ids k) k = visitIds ids k := by
  by_cases h : ids.getLast? = some k
  · simp [visitIds, h]
  · simp [visitIds, h]

theorem visitIds_block {l : List Nat} {k : Nat} (h : ∀ x ∈ l, x = k) (ids : List Nat) :
    l.foldl visitIds ids = if l = [] then ids else visitIds ids k := by
  induction l generalizing ids with
  | nil => rfl
  | cons x l ih =>
    have := h x (by simp)
    subst this
    rw [List.foldl_cons, ih (fun y hy => h y (by simp [hy])), if_neg (List.cons_ne_nil _ _)]
    split
    · rfl
    · exact visitIds_twice _ _

theorem visitIds_nodup {β : Type} {B : List β} {key : β → Nat} {f : β → List Nat} (hf : ∀ b ∈ B, ∀ x ∈ f b, x = key b)
    (hB : (B.map key).Nodup) : ((B.flatMap f).foldl visitIds []).Nodup := by
  suffices H : ∀ (B : List β) (ids : List Nat), (∀ b ∈ B, ∀ x ∈ f b, x = key b) → (B.map key).Nodup → ids.Nodup →
      (∀ i ∈ ids, i ∉ B.map key) → ((B.flatMap f).foldl visitIds ids).Nodup by
    exact H B [] hf hB (by simp) (by simp)
  intro B
  induction B with
  | nil => intro ids _ _ h _; exact h
  | cons b B ih =>
    intro ids hf hB hids hdis
    rw [List.map_cons, List.nodup_cons] at hB
    rw [List.flatMap_cons, List.foldl_append, visitIds_block (hf b (by simp))]
    have hk : key b ∉ ids := fun hk => hdis _ hk (by simp)
    refine ih _ (fun b' hb' => hf b' (by simp [hb'])) hB.2 ?_ ?_
    · split
      · exact hids
      · rw [visitIds]; split
        · exact hids
        · exact List.nodup_append.2 ⟨hids, by simp, by simpa using fun a ha (h : a = key b) => hk (h ▸ ha)⟩
    · have hmem : ∀ i, i ∈ (if f b = [] then ids else visitIds ids (key b)) → i ∈ ids ∨ i = key b := by
        intro i hi
        split at hi
        · exact Or.inl hi
        · rw [visitIds] at hi; split at hi
          · exact Or.inl hi
          · simpa using hi
      intro i hi hm
      rcases hmem i hi with h | rfl
      · exact hdis i h (by simp [hm])
      · exact hB.1 hm

end Libmorph

import Verif.Lemmas.RusWildTree
import Verif.Lemmas.EngWildScan
import Verif.Lemmas.RusScan
import Verif.Spec.RusWild
/-
Wildcard search in the Russian analyser.
-/
namespace Libmorph
open Libmorph.Spec

variable {A : List Byte} {D : RusDict} {st : RusState}

/-- A registration from what it does with an event. -/
def regOf {σ : Type} (reg : Nat × StrMatch → σ → Option σ) : WildReg σ := fun id text g s =>
  (reg (id, ⟨text, g.idForm⟩) s).map fun s => (0, s)

/-- The event of a form found by the description. -/
def rusEv (id wdinfo : Nat) (w : List Byte) (g : Gram) : Nat × StrMatch :=
  (id, ⟨w, if g.idForm ≠ 0xff then mapWordInfo wdinfo g.grInfo g.bFlags else g.idForm⟩)

theorem rusOut_emits {σ : Type} {cap : Nat} (reg : Nat × StrMatch → σ → Option σ) (id wdinfo : Nat) :
    OutEmits cap reg (rusWildOut (regOf reg) id wdinfo) (rusEv id wdinfo) := by
  intro w g hw buf s hb hpre
  have htake : buf.take w.length = w := by
    obtain ⟨t, rfl⟩ := hpre; simp
  have hl : ¬ buf.length < w.length := by omega
  have hrun : rusWildOut (regOf reg) id wdinfo w.length g (buf, s)
      = (reg (rusEv id wdinfo w g) s).map fun s => (0, (buf, s)) := by
    simp only [rusWildOut, hl, if_false, htake, regOf, rusEv, bind]
    generalize reg _ s = o
    cases o <;> rfl
  rw [hrun]
  simp only [List.foldlM_cons, List.foldlM_nil, bind]
  cases reg (rusEv id wdinfo w g) s with
  | none => rfl
  | some s' => exact ⟨buf, rfl, hb, hpre⟩

theorem mapWordInfo_stored (st : RusState) (a : RusArticle) (gr fl : Nat) :
    mapWordInfo (st.infoFor a).wdinfo gr fl = mapWordInfo a.wdinfo gr fl := by
  have h1 := rus_info_and st a 0x3f (by decide) (by decide)
  simp only [mapWordInfo, isVerb, isAdjective, h1]
  rfl

theorem sum_pos_iff (l : List Nat) : 0 < l.sum ↔ ∃ n ∈ l, 0 < n := by
  induction l with
  | nil => simp
  | cons a l ih =>
    rw [List.sum_cons]
    constructor
    · intro h
      by_cases ha : 0 < a
      · exact ⟨a, by simp, ha⟩
      · obtain ⟨n, h1, h2⟩ := ih.1 (by omega)
        exact ⟨n, by simp [h1], h2⟩
    · rintro ⟨n, h1, h2⟩
      rcases List.mem_cons.1 h1 with rfl | h1
      · omega
      · have := ih.2 ⟨n, h1, h2⟩; omega

theorem wildMatch_rests {r x v : List Byte} : WildMatch r (x ++ v) ↔ ∃ r' ∈ wildRests r x, WildMatch r' v := by
  rw [← wildWays_pos, wildWays_append, sum_pos_iff]
  constructor
  · rintro ⟨n, h1, h2⟩
    obtain ⟨r', h3, rfl⟩ := List.mem_map.1 h1
    exact ⟨r', h3, (wildWays_pos _ _).1 h2⟩
  · rintro ⟨r', h1, h2⟩
    exact ⟨_, List.mem_map.2 ⟨r', h1, rfl⟩, (wildWays_pos _ _).2 h2⟩

theorem rusMixLoop_ser {σ ε : Type} {cap : Nat} {reg : ε → σ → Option σ} {w : List Byte} {swap : Nat → List Byte → WildRun σ} (head : Mix → Nat) {EM : Mix → List ε} (tl : List Byte) :
    ∀ l : List Mix, (∀ m ∈ l, head m &&& 0x0f = m.str.length) →
      (∀ m ∈ l, Emits cap reg w (swap (head m >>> 4) m.str) (EM m)) →
      Emits cap reg w (rusMixLoop swap l.length ((l.map fun m => head m :: m.str).flatten ++ tl)) (l.flatMap EM) := by
  intro l
  induction l with
  | nil => intro _ _; exact Emits.done
  | cons m l ih =>
    intro hh hE
    rw [List.flatMap_cons]
    refine ((hE m (by simp)).seq (ih (fun x hx => hh x (by simp [hx])) (fun x hx => hE x (by simp [hx])))).congr ?_
    intro buf s _ _
    simp only [List.length_cons, List.map_cons, List.flatten_cons, List.cons_append, List.append_assoc, rusMixLoop, getbyte,
      bind, Option.bind, hh m (by simp)]
    rw [if_neg (by simp only [List.length_append]; omega), List.take_left, List.drop_left]

/-- The tree of endings of an inflected article. -/
theorem rus_tree (h : RusOk A D st) (hw : RusWildOk D) {a : RusArticle} (ha : a ∈ D.arts) (hinf : a.Inflected) :
    ∃ t : Tree (List FlexInfo), t.All GramsOk ∧ t.Good .u8 gramsLen ∧ t.kids.AllCh (· ≠ 42) ∧ (∀ p l, t.find p = some l → l.Nodup) ∧
      (∀ p g, (∃ l, t.find p = some l ∧ g ∈ l) ↔ Ending D.ftab a.tfoffs p g.gramm g.flags) ∧
      (∀ x ∈ D.altsOf a, a.stem.length + x.length + t.kids.depth + a.post.length ≤ 48) ∧
      createTree D.ftab maxNest a.tfoffs 0 0xff [] Tree.empty = some t ∧
      ∃ rest, (st.infoFor a).flexTable st.plain = some (t.ser .u8 gramsSer gramsLen ++ rest) := by
  obtain ⟨B, hok⟩ := h.tables a ha hinf
  obtain ⟨ht0, ht1, img, rest, himg, hsz, hdrop⟩ := rus_table_at h ha hinf
  have hfx := rus_info_flex h ha
  rw [if_pos hinf, hdrop] at hfx
  simp only [plainTable, Option.map_eq_some_iff] at himg
  obtain ⟨t, ht, rfl⟩ := himg
  obtain ⟨hd, hf, hn, hch⟩ := createTree_find hok.bytes ht
  have hgrams : ∀ k x, t.find k = some x → GramsOk x := by
    intro k x hx
    obtain ⟨h1, _, h3⟩ := hf k x hx
    refine ⟨hok.few k x h1 (fun e he => (h3 e).1 he), fun g hg => ?_⟩
    exact Spec.Ending.ok hok.bytes ((h3 g).1 hg)
  have hall : t.All GramsOk := Tree.all_of_find hd hgrams
  have hlen := Tree.ser_length .u8 gramsSer gramsLen t GramsOk gramsSer_length hall
  have hgood : t.Good .u8 gramsLen :=
    Tree.good_of (A := B) hd (hch _ hok.endings) (by exact hok.alpha) (fun x hx => (hok.letters x hx).2) (by omega)
  refine ⟨t, hall, hgood, hch (· ≠ 42) (fun w g f he b hb => hw.ends a ha hinf w g f he b hb), fun p l hl => (hf p l hl).1, ?_, ?_, ht, rest, hfx⟩
  · intro p g
    constructor
    · rintro ⟨l, h1, h2⟩; exact ((hf p l h1).2.2 g).1 h2
    · intro he
      cases hp : t.find p with
      | none => exact absurd he ((hn p).1 hp _ _)
      | some l => exact ⟨l, rfl, ((hf p l hp).2.2 g).2 he⟩
  · intro x hx
    have hb := hw.bare a ha hinf x hx
    have := createTree_depth (n := 47 - (a.stem.length + x.length + a.post.length)) ht (by
      intro e g fl he
      have := hw.short a ha hinf x hx e g fl he
      omega)
    omega

/-- The event list of one alternant. -/
theorem rus_part (h : RusOk A D st) (hw : RusWildOk D) {a : RusArticle} (ha : a ∈ D.arts) (hinf : a.Inflected)
    {table : List Byte} (htab : (st.infoFor a).flexTable st.plain = some table) (filter : FlexInfo → Bool) {x : List Byte} (hx : x ∈ D.altsOf a)
    (r : List Byte) :
    ∃ L : List (List Byte × FlexInfo),
      (∀ (σ : Type) (reg : Nat × StrMatch → σ → Option σ), Emits 48 reg (a.stem ++ x)
        (rusFlex (rusWildOut (regOf reg) a.id (st.infoFor a).wdinfo) filter a.post table r (a.stem ++ x).length)
        (L.map fun q => WildHit.report ⟨a, x, q.1, q.2⟩)) ∧
      (∀ p g, (p, g) ∈ L ↔ Ending D.ftab a.tfoffs p g.gramm g.flags ∧ filter g = true ∧ WildMatch r (p ++ a.post)) ∧
      (StarLast r → L.Nodup) := by
  obtain ⟨t, t1, t2, t3, t4, t5, t6, -, rest, t7⟩ := rus_tree h hw ha hinf
  rw [htab] at t7
  simp only [Option.some.injEq] at t7
  subst t7
  obtain ⟨L, l1, l2, l3⟩ := rusFlex_emits filter a.post (hw.posts a ha)
    ((t.ser .u8 gramsSer gramsLen ++ rest).length + r.length + 1) t r true t1 t2 t3 t4
    (by
      have := Forest.depth_le_ser gramsSer gramsLen t.kids
      simp only [Tree.ser, List.length_append]
      omega) (by simp)
  refine ⟨L, ?_, ?_, l3⟩
  · intro σ reg
    have := l1 σ _ 48 reg _ _ (rusOut_emits reg a.id (st.infoFor a).wdinfo) (a.stem ++ x) rest (by
      have := t6 x hx
      simp only [List.length_append]; omega)
    rw [show (L.map fun q => WildHit.report ⟨a, x, q.1, q.2⟩) = L.map (flexEv (rusEv a.id (st.infoFor a).wdinfo) (a.stem ++ x) a.post) by
      refine List.map_congr_left ?_
      intro q _
      simp [WildHit.report, flexEv, rusEv, hinf, mapWordInfo_stored]]
    exact this
  · intro p g
    rw [l2, t5]
    rfl

/-- What is found for an article and a rest of the template. -/
def RusDict.HitWith (D : RusDict) (a : RusArticle) (r : List Byte) (h : WildHit) : Prop :=
  h.art = a ∧ D.Reads a h.alt h.ending h.gram ∧ WildMatch r (if a.Inflected then h.alt ++ (h.ending ++ a.post) else [])

theorem nodup_flatMap_key {α β γ : Type} {l : List α} {f : α → List β} {key : α → γ} {k2 : β → γ} (hl : (l.map key).Nodup)
    (hf : ∀ a ∈ l, ∀ b ∈ f a, k2 b = key a) (hn : ∀ a ∈ l, (f a).Nodup) : (l.flatMap f).Nodup := by
  rw [List.nodup_flatMap]
  refine ⟨hn, ?_⟩
  rw [List.Nodup, List.pairwise_map] at hl
  refine List.Pairwise.imp_of_mem ?_ hl
  intro a b ha hb hab x hx hy
  exact hab ((hf a ha x hx).symm.trans (hf b hb x hy))

theorem rusTarget_emits (h : RusOk A D st) (hw : RusWildOk D) {a : RusArticle} (ha : a ∈ D.arts) (r : List Byte) :
    ∃ H : List WildHit,
      (∀ (σ : Type) (reg : Nat × StrMatch → σ → Option σ), Emits 48 reg a.stem
        (rusWildTarget (st.images D.mtab) (regOf reg) (st.entryFor D a).nlexid (st.entryFor D a).oclass r (st.entryFor D a).stpost a.stem.length)
        (H.map WildHit.report)) ∧
      (∀ x, x ∈ H ↔ D.HitWith a r x) ∧ (StarLast r → H.Nodup) := by
  have hload := rus_load h ha
  have hft : (st.images D.mtab).flexTree = st.plain := rfl
  have hfx := rus_info_flex h ha
  have hstem := hw.stems a ha
  by_cases hinf : a.Inflected
  · rw [if_pos hinf] at hfx
    have hmatch : ∀ x e, (if a.Inflected then x ++ (e ++ a.post) else []) = x ++ (e ++ a.post) := fun x e => if_pos hinf
    have hreads : ∀ x e g, D.Reads a x e g ↔ D.Inflects a x e g := by
      intro x e g; simp only [RusDict.Reads, if_pos hinf]
    by_cases hmt : a.mtoffs = 0
    · have hswap : (st.infoFor a).swapTable (st.images D.mtab).mxTables = none := by
        simp [RusStem.swapTable, RusState.infoFor, hmt]
      obtain ⟨L, l1, l2, l3⟩ := rus_part h hw ha hinf hfx (flexFilter (st.infoFor a).wdinfo) (x := []) (by simp [RusDict.altsOf, hmt]) r
      refine ⟨L.map fun q => ⟨a, [], q.1, q.2⟩, ?_, ?_, ?_⟩
      · intro σ reg
        have := l1 σ reg
        rw [List.map_map]
        simp only [List.append_nil] at this
        refine this.congr ?_
        intro buf s _ _
        simp only [rusWildTarget, hload, bind, Option.bind, hft, hfx, hswap]
        rfl
      · rintro ⟨a', x, e, g⟩
        simp only [List.mem_map, WildHit.mk.injEq, RusDict.HitWith, hreads, RusDict.Inflects, if_pos hmt, hmatch]
        constructor
        · rintro ⟨⟨p, g'⟩, hq, rfl, rfl, rfl, rfl⟩
          obtain ⟨h1, h2, h3⟩ := (l2 p g').1 hq
          exact ⟨rfl, ⟨h1, (flexFilter_stored st a g').1 h2, rfl⟩, h3⟩
        · rintro ⟨rfl, ⟨h1, h2, rfl⟩, h3⟩
          exact ⟨(e, g), (l2 e g).2 ⟨h1, (flexFilter_stored st a' g).2 h2, h3⟩, rfl, rfl, rfl, rfl⟩
      · intro hs
        refine List.Nodup.map ?_ (l3 hs)
        rintro ⟨p, g⟩ ⟨p', g'⟩ he
        simpa using he
    · obtain ⟨m1, m2, mrest, m3⟩ := h.mixes a ha hmt
      obtain ⟨i1, i2, i3, i4, i5, i6⟩ := mixOf_inv (D.alts a.mtoffs) m1.levels
      have hswap : (st.infoFor a).swapTable (st.images D.mtab).mxTables = some (mixSer (mixOf (D.alts a.mtoffs)) ++ mrest) := by
        have hmt' : (st.infoFor a).mtoffs ≠ 0 := hmt
        rw [RusStem.swapTable, if_pos hmt', ← m3]; rfl
      let l := mixOf (D.alts a.mtoffs)
      let head : Mix → Nat := mixHead (spareBits l)
      have hin : ∀ m ∈ l, m.str ∈ D.altsOf a := by
        intro m hm
        obtain ⟨k, hk⟩ := i3 m hm
        rw [RusDict.altsOf, if_neg hmt]
        exact List.mem_map.2 ⟨_, hk, rfl⟩
      have hhead : ∀ m ∈ l, head m &&& 0x0f = m.str.length := by
        intro m hm
        obtain ⟨k, hk⟩ := i3 m hm
        exact (mixHead_spec l m (m1.short _ hk) (i2 m hm)).2.1
      have hex : ∀ (m : Mix) (r' : List Byte), ∃ L : List (List Byte × FlexInfo), m ∈ l →
          (∀ (σ : Type) (reg : Nat × StrMatch → σ → Option σ), Emits 48 reg (a.stem ++ m.str)
            (rusFlex (rusWildOut (regOf reg) a.id (st.infoFor a).wdinfo) (altFilter (st.infoFor a).wdinfo (head m >>> 4)) a.post
              (st.plain.drop (st.tabFor a <<< 4)) r' (a.stem ++ m.str).length)
            (L.map fun q => WildHit.report ⟨a, m.str, q.1, q.2⟩)) ∧
          (∀ p g, (p, g) ∈ L ↔ Ending D.ftab a.tfoffs p g.gramm g.flags ∧ altFilter (st.infoFor a).wdinfo (head m >>> 4) g = true ∧
            WildMatch r' (p ++ a.post)) ∧
          (StarLast r' → L.Nodup) := by
        intro m r'
        by_cases hm : m ∈ l
        · obtain ⟨L, hL⟩ := rus_part h hw ha hinf hfx (altFilter (st.infoFor a).wdinfo (head m >>> 4)) (hin m hm) r'
          exact ⟨L, fun _ => hL⟩
        · exact ⟨[], fun hm' => absurd hm' hm⟩
      choose LM hLM using hex
      have hfilt : ∀ m ∈ l, ∀ g, altFilter (st.infoFor a).wdinfo (head m >>> 4) g = true ↔
          Serves (D.alts a.mtoffs) m.str (Spec.altLevel a.wdinfo g.gramm g.flags - 1) ∧ (a.PluralOnly → g.gramm &&& 0x800 ≠ 0) := by
        intro m hm g
        rw [C28_filter (D.alts a.mtoffs) m.str (head m >>> 4) (st.infoFor a).wdinfo g (mixHead_serves _ m1 hm), swapLevel_stored,
          rus_info_and st a wfMultiple (by decide) (by decide)]
        simp only [RusArticle.PluralOnly, wfMultiple, gfMultiple]
      let H : List WildHit := l.flatMap fun m => (wildRests r m.str).flatMap fun r' => (LM m r').map fun q => ⟨a, m.str, q.1, q.2⟩
      refine ⟨H, ?_, ?_, ?_⟩
      · intro σ reg
        have hE := rusMixLoop_ser (cap := 48) (reg := reg) (w := a.stem)
          (swap := fun powers mix =>
            scanString (fun inflex n => rusFlex (rusWildOut (regOf reg) a.id (st.infoFor a).wdinfo) (altFilter (st.infoFor a).wdinfo powers) a.post
              (st.plain.drop (st.tabFor a <<< 4)) inflex n) r mix a.stem.length) head
          (EM := fun m => (wildRests r m.str).flatMap fun r' => (LM m r').map fun q => WildHit.report ⟨a, m.str, q.1, q.2⟩) mrest l hhead
          (by
            intro m hm
            refine scanString_emits (E := fun r' => (LM m r').map fun q => WildHit.report ⟨a, m.str, q.1, q.2⟩) r m.str a.stem ?_ (hw.mixes a ha hinf _ (hin m hm)) ?_
            · have := hw.bare a ha hinf _ (hin m hm)
              simp only [List.length_append]; omega
            · intro r'
              exact (hLM m r' hm).1 σ reg)
        rw [show H.map WildHit.report = l.flatMap fun m => (wildRests r m.str).flatMap fun r' => (LM m r').map fun q => WildHit.report ⟨a, m.str, q.1, q.2⟩ by
          simp only [H, List.map_flatMap, List.map_map]; rfl]
        refine hE.congr ?_
        intro buf s _ _
        have hlen : l.length % 256 = l.length := Nat.mod_eq_of_lt (Nat.lt_of_le_of_lt i6 m1.count)
        simp only [rusWildTarget, hload, bind, Option.bind, hft, hfx, hswap, mixSer, List.cons_append, getbyte]
        rw [show (mixOf (D.alts a.mtoffs)).length % 256 = l.length from hlen]
        rfl
      · rintro ⟨a', x, e, g⟩
        simp only [H, List.mem_flatMap, List.mem_map, WildHit.mk.injEq, RusDict.HitWith, hreads, RusDict.Inflects, if_neg hmt, hmatch]
        constructor
        · rintro ⟨m, hm, r', hr', ⟨p, g'⟩, hq, rfl, rfl, rfl, rfl⟩
          obtain ⟨h1, h2, h3⟩ := ((hLM m r' hm).2.1 p g').1 hq
          rw [hfilt m hm] at h2
          exact ⟨rfl, ⟨h1, h2.2, h2.1⟩, wildMatch_rests.2 ⟨r', hr', h3⟩⟩
        · rintro ⟨rfl, ⟨h1, h2, h3⟩, h4⟩
          have hx : ∃ m ∈ l, m.str = x := by
            rcases h3 with h3 | h3
            · obtain ⟨m, hm, rfl⟩ := i4 _ h3
              exact ⟨m, hm, rfl⟩
            · obtain ⟨m, hm, rfl⟩ := i4 _ h3.1
              exact ⟨m, hm, rfl⟩
          obtain ⟨m, hm, rfl⟩ := hx
          obtain ⟨r', hr', h5⟩ := wildMatch_rests.1 h4
          exact ⟨m, hm, r', hr', (e, g), ((hLM m r' hm).2.1 e g).2 ⟨h1, (hfilt m hm g).2 ⟨h3, h2⟩, h5⟩, rfl, rfl, rfl, rfl⟩
      · intro hs
        refine nodup_flatMap_key (key := Mix.str) (k2 := WildHit.alt) ?_ ?_ ?_
        · rw [List.Nodup, List.pairwise_map]
          exact i1.imp fun hab => bytesLt_ne hab
        · intro m hm b hb
          simp only [List.mem_flatMap, List.mem_map] at hb
          obtain ⟨r', -, q, -, rfl⟩ := hb
          rfl
        · intro m hm
          have hlen := wildRests_starLast r m.str hs
          have hone : ∀ l' : List (List Byte), l'.length ≤ 1 → (∀ r' ∈ l', StarLast r') →
              (l'.flatMap fun r' => (LM m r').map fun q => (⟨a, m.str, q.1, q.2⟩ : WildHit)).Nodup := by
            intro l' h1 h2
            match l', h1, h2 with
            | [], _, _ => simp
            | [r'], _, h2 =>
              rw [List.flatMap_cons, List.flatMap_nil, List.append_nil]
              refine List.Nodup.map ?_ ((hLM m r' hm).2.2 (h2 r' (by simp)))
              rintro ⟨p, g⟩ ⟨p', g'⟩ he
              simpa using he
            | _ :: _ :: _, h1, _ => simp only [List.length_cons] at h1; omega
          refine hone _ hlen ?_
          intro r' hr'
          clear hone hlen
          generalize m.str = x at hr'
          clear * - hr' hs
          induction r, x using wildRests.induct with
          | case1 p => simp only [wildRests, List.mem_singleton] at hr'; subst hr'; exact hs
          | case2 x w => simp [wildRests] at hr'
          | case3 p x w ih1 ih2 =>
            rw [wildRests, if_pos rfl, List.mem_append] at hr'
            rcases hr' with hr' | hr'
            · exact ih1 hs.2 hr'
            · exact ih2 hs hr'
          | case4 c p x w h1 h2 ih => rw [wildRests, if_neg h1, if_pos h2] at hr'; exact ih hs.2 hr'
          | case5 c p x w h1 h2 => rw [wildRests, if_neg h1, if_neg h2] at hr'; simp at hr'
  · rw [if_neg hinf] at hfx
    refine ⟨if r.isEmpty || isAsterisk r then [⟨a, [], [], ⟨a.tfoffs, 0⟩⟩] else [], ?_, ?_, ?_⟩
    · intro σ reg
      split
      · rename_i hr
        rw [show ([⟨a, [], [], ⟨a.tfoffs, 0⟩⟩] : List WildHit).map WildHit.report = [rusEv a.id (st.infoFor a).wdinfo a.stem ⟨0, 0xff, 0, 0⟩] by
          simp [WildHit.report, hinf, rusEv]]
        refine (rusOut_emits (cap := 48) reg a.id (st.infoFor a).wdinfo a.stem ⟨0, 0xff, 0, 0⟩ (by omega)).congr ?_
        intro buf s _ _
        simp only [rusWildTarget, hload, bind, Option.bind, hft, hfx, hr, if_true]
        rfl
      · rename_i hr
        refine Emits.done.congr ?_
        intro buf s _ _
        simp only [rusWildTarget, hload, bind, Option.bind, hft, hfx, hr]
        rfl
    · rintro ⟨a', x, e, g⟩
      simp only [RusDict.HitWith, if_neg hinf, RusDict.Reads, wildMatch_empty]
      split
      · rename_i hr
        simp only [List.mem_singleton, WildHit.mk.injEq, hr, and_true]
      · rename_i hr
        simp [hr]
    · intro _; split <;> simp

/-! ### Registration -/

/-- `rusReg` on an event. -/
def rusRegE (ev : Nat × StrMatch) (s : MatchSt) : Option MatchSt := (s.enter ev.1).push 512 (256 * 96) ev.2.text ev.2.id

theorem rusReg_eq : rusReg = regOf rusRegE := by
  funext id text g s
  simp only [rusReg, regOf, rusRegE, bind]
  cases (s.enter id).push 512 (256 * 96) text g.idForm <;> rfl

/-- The matches of the calls one after another. -/
def flatCalls (C : List (Nat × List StrMatch)) : List (Nat × StrMatch) := C.flatMap fun c => c.2.map fun m => (c.1, m)

structure RusRegInv (P : List (Nat × StrMatch)) (s : MatchSt) : Prop where
  start : s.lastId = 0 → P = [] ∧ s.calls = []
  used : s.lastId ≠ 0 → ∃ u, s.used = some u ∧ ((∀ e ∈ P, e.2.text.length < 48) → u ≤ s.amatch.length * 48)
  flat : flatCalls s.all = P
  nonempty : ∀ c ∈ s.all, c.2 ≠ []
  change : s.all.IsChain fun c d => c.1 ≠ d.1
  ids : s.all.map Prod.fst = (P.map Prod.fst).foldl visitIds []

theorem rusRegInv_init : RusRegInv [] {} :=
  ⟨fun _ => ⟨rfl, rfl⟩, fun h => absurd rfl h, rfl, by simp [MatchSt.all], by simp [MatchSt.all], by simp [MatchSt.all]⟩

theorem rusRegInv_step {P : List (Nat × StrMatch)} {s : MatchSt} (h : RusRegInv P s) (id : Nat) (m : StrMatch) (hid : id ≠ 0) :
    (∀ s', rusRegE (id, m) s = some s' → RusRegInv (P ++ [(id, m)]) s') ∧
    ((∀ e ∈ P ++ [(id, m)], e.2.text.length < 48) → ((P ++ [(id, m)]).filter fun e => e.1 = id).length ≤ 512 →
      ∃ s', rusRegE (id, m) s = some s') := by
  have hids : ∀ s' : MatchSt, s'.all.map Prod.fst = visitIds (s.all.map Prod.fst) id →
      s'.all.map Prod.fst = ((P ++ [(id, m)]).map Prod.fst).foldl visitIds [] := by
    intro s' hs'
    rw [hs', h.ids, List.map_append, List.foldl_append]
    rfl
  by_cases hl : id = s.lastId
  · have hl0 : s.lastId ≠ 0 := hl ▸ hid
    have henter : s.enter id = s := by simp [MatchSt.enter, hl]
    have hall : s.all = s.calls ++ [(id, s.amatch)] := by rw [MatchSt.all, if_pos hl0, hl]
    obtain ⟨u, hu, hul⟩ := h.used hl0
    have hflat := h.flat
    rw [hall] at hflat
    have hpush : rusRegE (id, m) s = if s.amatch.length < 512 ∧ u + m.text.length + 1 ≤ 256 * 96 then
        some { s with amatch := s.amatch ++ [m], used := some (u + m.text.length + 1) } else none := by
      simp only [rusRegE, henter, MatchSt.push, hu, bind, Option.bind_some]
      split <;> rfl
    constructor
    · intro s' hs'
      rw [hpush] at hs'
      split at hs'
      · simp only [Option.some.injEq] at hs'
        subst hs'
        have hall' : MatchSt.all { s with amatch := s.amatch ++ [m], used := some (u + m.text.length + 1) } = s.calls ++ [(id, s.amatch ++ [m])] := by
          simp only [MatchSt.all]; rw [if_pos hl0, hl]
        have hchange := h.change
        have hne := h.nonempty
        rw [hall] at hchange hne
        refine ⟨fun h0 => absurd h0 hl0, fun _ => ⟨_, rfl, ?_⟩, ?_, ?_, ?_, ?_⟩
        · intro hsh
          have h1 := hul fun e he => hsh e (by simp [he])
          have h2 := hsh (id, m) (by simp)
          simp only at h2
          simp only [List.length_append, List.length_singleton]
          omega
        · rw [hall', ← hflat]
          simp [flatCalls]
        · rw [hall']
          intro c hc
          rcases List.mem_append.1 hc with hc | hc
          · exact hne c (by simp [hc])
          · simp only [List.mem_singleton] at hc; subst hc; simp
        · rw [hall']
          rw [List.isChain_append] at hchange ⊢
          exact ⟨hchange.1, by simp, by simpa using hchange.2.2⟩
        · refine hids _ ?_
          rw [hall', hall, visitIds]
          simp
      · simp at hs'
    · intro hsh hcnt
      rw [hpush, if_pos]
      · exact ⟨_, rfl⟩
      · have h1 := hul fun e he => hsh e (by simp [he])
        have h2 := hsh (id, m) (by simp)
        simp only at h2
        have h3 : s.amatch.length + 1 ≤ 512 := by
          refine Nat.le_trans ?_ hcnt
          rw [← hflat]
          have hself : (s.amatch.filter ((fun e : Nat × StrMatch => decide (e.1 = id)) ∘ fun m => (id, m))) = s.amatch := by
            rw [List.filter_eq_self]; intro x _; simp
          simp [flatCalls, List.filter_map, hself]
        constructor
        · omega
        · omega
  · have henter : s.enter id = ⟨s.all, id, [], some 0⟩ := by
      simp only [MatchSt.enter, MatchSt.all]; rw [if_pos hl]
    have hpush : rusRegE (id, m) s = if 0 < 512 ∧ 0 + m.text.length + 1 ≤ 256 * 96 then
        some ⟨s.all, id, [m], some (0 + m.text.length + 1)⟩ else none := by
      simp only [rusRegE, henter, MatchSt.push, bind, Option.bind_some]
      by_cases ht : 0 + m.text.length + 1 ≤ 256 * 96
      · rw [if_pos ⟨by simp, ht⟩, if_pos ⟨by omega, ht⟩]; rfl
      · rw [if_neg fun hh => ht hh.2, if_neg fun hh => ht hh.2]
    constructor
    · intro s' hs'
      rw [hpush] at hs'
      split at hs'
      · simp only [Option.some.injEq] at hs'
        subst hs'
        have hall' : MatchSt.all ⟨s.all, id, [m], some (0 + m.text.length + 1)⟩ = s.all ++ [(id, [m])] := by
          rw [MatchSt.all]; exact if_pos hid
        have hlast : ∀ c ∈ s.all.getLast?, c.1 ≠ id := by
          intro x hx
          by_cases h0 : s.lastId = 0
          · have := h.start h0
            simp only [MatchSt.all, if_neg (fun hh : s.lastId ≠ 0 => hh h0), this.2] at hx
            simp at hx
          · simp only [MatchSt.all] at hx
            rw [if_pos h0] at hx
            simp only [List.getLast?_concat, Option.mem_def, Option.some.injEq] at hx
            subst hx
            exact fun hh => hl hh.symm
        refine ⟨fun h0 => absurd h0 hid, fun _ => ⟨_, rfl, ?_⟩, ?_, ?_, ?_, ?_⟩
        · intro hsh
          have h2 := hsh (id, m) (by simp)
          simp only at h2
          simp only [List.length_singleton]
          omega
        · rw [hall']
          have := h.flat
          simp only [flatCalls] at this ⊢
          rw [List.flatMap_append, this]
          simp
        · rw [hall']
          intro c hc
          rcases List.mem_append.1 hc with hc | hc
          · exact h.nonempty c hc
          · simp only [List.mem_singleton] at hc; subst hc; simp
        · rw [hall', List.isChain_append]
          refine ⟨h.change, by simp, ?_⟩
          intro x hx y hy
          simp only [List.head?_cons, Option.mem_def, Option.some.injEq] at hy
          subst hy
          exact hlast x hx
        · refine hids _ ?_
          have e3 : (s.all.map Prod.fst).getLast? ≠ some id := by
            rw [List.getLast?_map]
            intro hh
            obtain ⟨c, h1, h2⟩ := Option.map_eq_some_iff.1 hh
            exact hlast c h1 h2
          rw [hall', visitIds, if_neg e3]
          simp
      · simp at hs'
    · intro hsh _
      have h2 := hsh (id, m) (by simp)
      simp only at h2
      rw [hpush, if_pos ⟨by omega, by omega⟩]
      exact ⟨_, rfl⟩

theorem rusReg_all {E : List (Nat × StrMatch)} (hid : ∀ e ∈ E, e.1 ≠ 0) :
    (∀ s, E.foldlM (fun s e => rusRegE e s) ({} : MatchSt) = some s → RusRegInv E s) ∧
    ((∀ e ∈ E, e.2.text.length < 48) → (∀ id, (E.filter fun e => e.1 = id).length ≤ 512) →
      ∃ s, E.foldlM (fun s e => rusRegE e s) ({} : MatchSt) = some s) := by
  have : ∀ (Q P : List (Nat × StrMatch)) (s : MatchSt), P ++ Q = E → RusRegInv P s →
      (∀ s', Q.foldlM (fun s e => rusRegE e s) s = some s' → RusRegInv E s') ∧
      ((∀ e ∈ E, e.2.text.length < 48) → (∀ id, (E.filter fun e => e.1 = id).length ≤ 512) →
        ∃ s', Q.foldlM (fun s e => rusRegE e s) s = some s') := by
    intro Q
    induction Q with
    | nil =>
      intro P s hPQ h
      refine ⟨?_, fun _ _ => ⟨s, rfl⟩⟩
      intro s' hs'
      simp only [List.foldlM_nil, pure, Option.some.injEq] at hs'
      subst hs'
      simpa [← hPQ] using h
    | cons ev Q ih =>
      intro P s hPQ h
      have hev : ev ∈ E := by rw [← hPQ]; simp
      obtain ⟨h1, h2⟩ := rusRegInv_step h ev.1 ev.2 (hid ev hev)
      have hPQ' : (P ++ [ev]) ++ Q = E := by simpa using hPQ
      rw [List.foldlM_cons]
      simp only [bind]
      constructor
      · intro s' hs'
        cases hr : rusRegE ev s with
        | none => rw [hr] at hs'; simp at hs'
        | some s1 =>
          rw [hr] at hs'
          exact (ih (P ++ [ev]) s1 hPQ' (h1 s1 hr)).1 s' hs'
      · intro hsh hcnt
        obtain ⟨s1, hr⟩ := h2 (fun e he => hsh e (by rw [← hPQ']; exact List.mem_append_left _ he)) (by
          refine Nat.le_trans ?_ (hcnt ev.1)
          rw [← hPQ', List.filter_append (P ++ [ev]) Q, List.length_append]
          exact Nat.le_add_right _ _)
        have hr : rusRegE ev s = some s1 := hr
        rw [hr]
        exact (ih (P ++ [ev]) s1 hPQ' (h1 s1 hr)).2 hsh hcnt
  exact this E [] {} rfl rusRegInv_init

theorem rus_finish_eq (client : List (Nat × List StrMatch) → Int) {E : List (Nat × StrMatch)} {s : MatchSt} (h : RusRegInv E s) :
    s.finish client 0 = (if s.all = [] then 0 else client s.all, s.all) := by
  simp only [MatchSt.finish, MatchSt.all, ne_eq, not_true_eq_false, if_false]
  by_cases h0 : s.lastId = 0
  · simp [h0, (h.start h0).2]
  · simp [h0]

end Libmorph

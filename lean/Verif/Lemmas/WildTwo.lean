import Verif.Lemmas.RusTwo
import Verif.Props.C30Rus
/-
Wildcard search in two Russian dictionaries compiled from the same articles in two orders.
-/
namespace Libmorph
open Spec

/-- One run gives every answer the other gives. -/
def Leads {σ : Type} (f g : WildRun σ) : Prop := ∀ st y, f st = some y → g st = some y

theorem Leads.seq {σ : Type} {f g f' g' : WildRun σ} (hf : Leads f f') (hg : Leads g g') : Leads (f.seq g) (f'.seq g') := by
  intro st y h
  simp only [WildRun.seq, bind] at h ⊢
  cases e : f st with
  | none => rw [e] at h; simp at h
  | some x =>
    rw [e] at h
    rw [hf _ _ e]
    simp only [Option.bind] at h ⊢
    split
    · rename_i hr; rw [if_pos hr] at h; exact h
    · rename_i hr; rw [if_neg hr] at h; exact hg _ _ h

theorem flexKids_leads {σ : Type} {step step' : Byte → List Byte → WildRun σ} (hs : ∀ c sub, Leads (step c sub) (step' c sub)) (n : Nat) :
    ∀ (k : Nat) (p : List Byte) (st : WildSt σ) (y), flexKids step n k p st = some y → flexKids step' n k p st = some y := by
  intro k
  induction k with
  | zero => intro p st y h; exact h
  | succ k ih =>
    intro p st y h
    simp only [flexKids, bind] at h ⊢
    cases e1 : getbyte p with
    | none => rw [e1] at h; simp at h
    | some x =>
      rw [e1] at h
      simp only [Option.bind] at h ⊢
      cases e2 : poke1 n x.1 st with
      | none => rw [e2] at h; simp at h
      | some st1 =>
        rw [e2] at h
        simp only at h ⊢
        cases e3 : getserial x.2 with
        | none => rw [e3] at h; simp at h
        | some z =>
          rw [e3] at h
          simp only at h ⊢
          cases e4 : step x.1 z.2 st1 with
          | none => rw [e4] at h; simp at h
          | some u =>
            rw [e4] at h
            rw [hs _ _ _ _ e4]
            simp only at h ⊢
            split
            · rename_i hr; rw [if_pos hr] at h; exact h
            · rename_i hr; rw [if_neg hr] at h; exact ih _ _ _ h

theorem rusFlexAux_leads {σ : Type} (out : WildOut σ) (filter : FlexInfo → Bool) (suffix : List Byte) :
    ∀ (fuel : Nat) (dic r : List Byte) (n : Nat) (z : Bool),
      Leads (rusFlexAux out filter suffix fuel dic r n z) (rusFlexAux out filter suffix (fuel + 1) dic r n z) := by
  intro fuel
  induction fuel with
  | zero => intro dic r n z st y h; simp [rusFlexAux] at h
  | succ fuel ih =>
    intro dic r n z st y h
    rw [rusFlexAux] at h ⊢
    simp only [bind] at h ⊢
    cases e1 : getcount .u8 dic with
    | none => rw [e1] at h; simp at h
    | some x =>
      rw [e1] at h
      simp only [Option.bind] at h ⊢
      cases r with
      | nil => exact h
      | cons c rest =>
        simp only at h ⊢
        have hz : Leads (fun st => if c = 42 ∧ z = true then rusFlexAux out filter suffix fuel dic rest n true st else some (0, st))
            (fun st => if c = 42 ∧ z = true then rusFlexAux out filter suffix (fuel + 1) dic rest n true st else some (0, st)) := by
          intro st y h
          by_cases hc : c = 42 ∧ z = true
          · simp only [if_pos hc] at h ⊢; exact ih _ _ _ _ _ _ h
          · simp only [if_neg hc] at h ⊢; exact h
        have hk : ∀ ch sub, Leads
            (if c = 63 ∨ ch = c then rusFlexAux out filter suffix fuel sub rest (n + 1) true
              else if c = 42 then
                (rusFlexAux out filter suffix fuel sub rest (n + 1) true).seq (rusFlexAux out filter suffix fuel sub (c :: rest) (n + 1) false)
              else fun st => some (0, st))
            (if c = 63 ∨ ch = c then rusFlexAux out filter suffix (fuel + 1) sub rest (n + 1) true
              else if c = 42 then
                (rusFlexAux out filter suffix (fuel + 1) sub rest (n + 1) true).seq (rusFlexAux out filter suffix (fuel + 1) sub (c :: rest) (n + 1) false)
              else fun st => some (0, st)) := by
          intro ch sub
          split
          · exact ih _ _ _ _
          · split
            · exact (ih _ _ _ _).seq (ih _ _ _ _)
            · intro st y h; exact h
        have hz' := hz st
        simp only at hz'
        revert h hz'
        generalize (if c = 42 ∧ z = true then rusFlexAux out filter suffix fuel dic rest n true st else some (0, st)) = o
        generalize (if c = 42 ∧ z = true then rusFlexAux out filter suffix (fuel + 1) dic rest n true st else some (0, st)) = o'
        intro h hz'
        cases o with
        | none => simp at h
        | some v =>
          rw [hz' v rfl]
          simp only at h ⊢
          by_cases hv : v.1 ≠ 0
          · rw [if_pos hv] at h ⊢; exact h
          · rw [if_neg hv] at h ⊢
            have hkk := flexKids_leads hk n (Counter.getlower .u8 x.1) x.2 v.2
            revert h hkk
            generalize flexKids (fun ch sub =>
              if c = 63 ∨ ch = c then rusFlexAux out filter suffix fuel sub rest (n + 1) true
              else if c = 42 then
                (rusFlexAux out filter suffix fuel sub rest (n + 1) true).seq (rusFlexAux out filter suffix fuel sub (c :: rest) (n + 1) false)
              else fun st => some (0, st)) n (Counter.getlower .u8 x.1) x.2 v.2 = q
            intro h hkk
            cases q with
            | none => simp at h
            | some u => rw [hkk u rfl]; exact h

theorem rusFlexAux_leads_add {σ : Type} (out : WildOut σ) (filter : FlexInfo → Bool) (suffix dic r : List Byte) (n : Nat) (z : Bool) (fuel d : Nat) :
    Leads (rusFlexAux out filter suffix fuel dic r n z) (rusFlexAux out filter suffix (fuel + d) dic r n z) := by
  induction d with
  | zero => intro st y h; exact h
  | succ d ih => intro st y h; exact rusFlexAux_leads _ _ _ _ _ _ _ _ _ _ (ih _ _ h)

theorem foldl_collect {ε : Type} (E s : List ε) : E.foldlM (fun s e => some (s ++ [e])) s = some (s ++ E) := by
  induction E generalizing s with
  | nil => simp
  | cons e E ih => rw [List.foldlM_cons]; simp only [bind, Option.bind]; rw [ih]; simp

/-- A run tells the events of a run that leads to it. -/
theorem emits_leads {ε : Type} {cap : Nat} {w : List Byte} {f g : WildRun (List ε)} {E F : List ε} (hw : w.length ≤ cap)
    (hf : Emits cap (fun e s => some (s ++ [e])) w f E) (hg : Emits cap (fun e s => some (s ++ [e])) w g F) (h : Leads f g) : E = F := by
  have h1 := hf (w ++ List.replicate (cap - w.length) 0) [] (by simp; omega) (List.prefix_append _ _)
  have h2 := hg (w ++ List.replicate (cap - w.length) 0) [] (by simp; omega) (List.prefix_append _ _)
  rw [foldl_collect] at h1 h2
  obtain ⟨b1, h1, -⟩ := h1
  obtain ⟨b2, h2, -⟩ := h2
  have := h _ _ h1
  rw [h2] at this
  simp only [Option.some.injEq, Prod.mk.injEq, List.nil_append, true_and] at this
  exact this.2.symm

/-- The events of a search among endings do not depend on what follows the table. -/
theorem rusFlex_any (filter : FlexInfo → Bool) (post : List Byte) (hs : ∀ c ∈ post, c ≠ 42 ∧ c ≠ 63) (t : Tree (List FlexInfo)) (r : List Byte)
    (hP : t.All GramsOk) (hg : t.Good .u8 gramsLen) (hch : t.kids.AllCh (· ≠ 42)) (hnd : ∀ p l, t.find p = some l → l.Nodup)
    (id wdinfo : Nat) (w : List Byte) (hw : w.length + t.kids.depth + post.length ≤ 48) :
    ∃ E : List (Nat × StrMatch), ∀ (rest : List Byte) (σ : Type) (reg : Nat × StrMatch → σ → Option σ),
      Emits 48 reg w (rusFlex (rusWildOut (regOf reg) id wdinfo) filter post (t.ser .u8 gramsSer gramsLen ++ rest) r w.length) E := by
  obtain ⟨L0, l0, -, -⟩ := rusFlex_emits filter post hs (r.length + t.kids.depth + 1) t r true hP hg hch hnd (by omega) (by simp)
  refine ⟨L0.map (flexEv (rusEv id wdinfo) w post), fun rest σ reg => ?_⟩
  have hd : ∃ d, (t.ser .u8 gramsSer gramsLen ++ rest).length + r.length + 1 = (r.length + t.kids.depth + 1) + d := by
    have := Forest.depth_le_ser gramsSer gramsLen t.kids
    refine ⟨(t.ser .u8 gramsSer gramsLen ++ rest).length - t.kids.depth, ?_⟩
    simp only [Tree.ser, List.length_append]
    omega
  obtain ⟨d, hd⟩ := hd
  obtain ⟨L1, l1, -, -⟩ := rusFlex_emits filter post hs ((r.length + t.kids.depth + 1) + d) t r true hP hg hch hnd (by omega) (by simp)
  have he := emits_leads (by omega)
    (l0 _ _ 48 (fun e s => some (s ++ [e])) _ _ (rusOut_emits (fun e s => some (s ++ [e])) id wdinfo) w rest hw)
    (l1 _ _ 48 (fun e s => some (s ++ [e])) _ _ (rusOut_emits (fun e s => some (s ++ [e])) id wdinfo) w rest hw)
    (rusFlexAux_leads_add _ _ _ _ _ _ _ _ d)
  rw [he, rusFlex, hd]
  exact l1 σ _ 48 reg _ _ (rusOut_emits reg id wdinfo) w rest hw

variable {A A' : List Byte} {D D' : RusDict} {st st' : RusState}

/-- The alternants of the first dictionary do for the second. -/
theorem TwoOrders.withAlts (t : TwoOrders D D') (h : RusOk A D st) (h' : RusOk A' D' st') : RusOk A' { D' with alts := D.alts } st' where
  built := h'.built
  alpha := h'.alpha
  letters := h'.letters
  stems := h'.stems
  short := h'.short
  ids := h'.ids
  posts := h'.posts
  text := h'.text
  words := h'.words
  prepos := h'.prepos
  plainw := h'.plainw
  refs := h'.refs
  tables := h'.tables
  long := h'.long
  mixes := fun a ha hm => by
    have := h.mixes a (t.arts.perm.mem_iff.2 ha) hm
    rw [← t.mtab] at this
    exact this
  covers := fun a ha => by
    have := h.covers a (t.arts.perm.mem_iff.2 ha)
    simp only [RusDict.Covered, RusDict.Reads, RusDict.Inflects] at this ⊢
    rw [← t.mtab, ← t.ftab] at this
    exact this
  count := h'.count
  classes := h'.classes
  plain := h'.plain
  size := h'.size

theorem rus_part_two (t : TwoOrders D D') (h : RusOk A D st) (h' : RusOk A' D' st') (hw : RusWildOk D) (hw' : RusWildOk D') {a : RusArticle} (ha : a ∈ D.arts)
    (hinf : a.Inflected) {table table' : List Byte} (htab : (st.infoFor a).flexTable st.plain = some table)
    (htab' : (st'.infoFor a).flexTable st'.plain = some table') (filter : FlexInfo → Bool) {x : List Byte} (hx : x ∈ D.altsOf a) (r : List Byte) :
    ∃ E : List (Nat × StrMatch), ∀ (σ : Type) (reg : Nat × StrMatch → σ → Option σ),
      Emits 48 reg (a.stem ++ x) (rusFlex (rusWildOut (regOf reg) a.id (st.infoFor a).wdinfo) filter a.post table r (a.stem ++ x).length) E ∧
      Emits 48 reg (a.stem ++ x) (rusFlex (rusWildOut (regOf reg) a.id (st.infoFor a).wdinfo) filter a.post table' r (a.stem ++ x).length) E := by
  obtain ⟨T, t1, t2, t3, t4, -, t6, t8, rest, t7⟩ := rus_tree h hw ha hinf
  obtain ⟨T', -, -, -, -, -, -, t8', rest', t7'⟩ := rus_tree h' hw' (t.arts.perm.mem_iff.1 ha) hinf
  rw [t.ftab, t8] at t8'
  obtain rfl := Option.some.inj t8'
  rw [htab] at t7
  rw [htab'] at t7'
  simp only [Option.some.injEq] at t7 t7'
  subst t7
  subst t7'
  obtain ⟨E, hE⟩ := rusFlex_any filter a.post (hw.posts a ha) T r t1 t2 t3 t4 a.id (st.infoFor a).wdinfo (a.stem ++ x) (by
    have := t6 x hx
    simp only [List.length_append]; omega)
  exact ⟨E, fun σ reg => ⟨hE rest σ reg, hE rest' σ reg⟩⟩

/-- The target of the search finds the same for an article in both dictionaries. -/
theorem rusTarget_two (t : TwoOrders D D') (halts : D'.alts = D.alts) (h : RusOk A D st) (h' : RusOk A' D' st') (hw : RusWildOk D) (hw' : RusWildOk D')
    {a : RusArticle} (ha : a ∈ D.arts) (r : List Byte) :
    ∃ E : List (Nat × StrMatch), ∀ (σ : Type) (reg : Nat × StrMatch → σ → Option σ),
      Emits 48 reg a.stem (rusWildTarget (st.images D.mtab) (regOf reg) a.id (st.entryFor D a).oclass r a.post a.stem.length) E ∧
      Emits 48 reg a.stem (rusWildTarget (st'.images D'.mtab) (regOf reg) a.id (st'.entryFor D' a).oclass r a.post a.stem.length) E := by
  have ha' : a ∈ D'.arts := t.arts.perm.mem_iff.1 ha
  have hload := rus_load h ha
  have hload' := rus_load h' ha'
  have hft : (st.images D.mtab).flexTree = st.plain := rfl
  have hft' : (st'.images D'.mtab).flexTree = st'.plain := rfl
  have hfx := rus_info_flex h ha
  have hfx' := rus_info_flex h' ha'
  have hsame := same_class t h h' ha
  have hwd : (st'.infoFor a).wdinfo = (st.infoFor a).wdinfo := hsame.wdinfo.symm
  have hsw := hsame.swap
  have hstem := hw.stems a ha
  by_cases hinf : a.Inflected
  · rw [if_pos hinf] at hfx hfx'
    by_cases hmt : a.mtoffs = 0
    · have hswap : (st.infoFor a).swapTable (st.images D.mtab).mxTables = none := by
        simp [RusStem.swapTable, RusState.infoFor, hmt]
      rw [hswap] at hsw
      obtain ⟨E, hE⟩ := rus_part_two t h h' hw hw' ha hinf hfx hfx' (flexFilter (st.infoFor a).wdinfo) (x := []) (by simp [RusDict.altsOf, hmt]) r
      refine ⟨E, fun σ reg => ?_⟩
      obtain ⟨e1, e2⟩ := hE σ reg
      simp only [List.append_nil] at e1 e2
      refine ⟨e1.congr ?_, e2.congr ?_⟩
      · intro buf s _ _
        simp only [rusWildTarget, hload, bind, Option.bind, hft, hfx, hswap]
      · intro buf s _ _
        simp only [rusWildTarget, hload', bind, Option.bind, hft', hfx', ← hsw, hwd]
    · obtain ⟨m1, m2, mrest, m3⟩ := h.mixes a ha hmt
      obtain ⟨i1, i2, i3, i4, i5, i6⟩ := mixOf_inv (D.alts a.mtoffs) m1.levels
      have hswap : (st.infoFor a).swapTable (st.images D.mtab).mxTables = some (mixSer (mixOf (D.alts a.mtoffs)) ++ mrest) := by
        have hmt' : (st.infoFor a).mtoffs ≠ 0 := hmt
        rw [RusStem.swapTable, if_pos hmt', ← m3]; rfl
      rw [hswap] at hsw
      let l := mixOf (D.alts a.mtoffs)
      let head : Mix → Nat := mixHead (spareBits l)
      have hin : ∀ m ∈ l, m.str ∈ D.altsOf a := by
        intro m hm
        obtain ⟨k, hk⟩ := i3 m hm
        rw [RusDict.altsOf, if_neg hmt]
        exact List.mem_map.2 ⟨_, hk, rfl⟩
      have hhead : ∀ m ∈ l, head m &&& 0x0f = m.str.length := by
        intro m hm
        obtain ⟨k, hk⟩ := i3 m hm
        exact (mixHead_spec l m (m1.short _ hk) (i2 m hm)).2.1
      have hex : ∀ (m : Mix) (r' : List Byte), ∃ E : List (Nat × StrMatch), m ∈ l → ∀ (σ : Type) (reg : Nat × StrMatch → σ → Option σ),
          Emits 48 reg (a.stem ++ m.str)
            (rusFlex (rusWildOut (regOf reg) a.id (st.infoFor a).wdinfo) (altFilter (st.infoFor a).wdinfo (head m >>> 4)) a.post
              (st.plain.drop (st.tabFor a <<< 4)) r' (a.stem ++ m.str).length) E ∧
          Emits 48 reg (a.stem ++ m.str)
            (rusFlex (rusWildOut (regOf reg) a.id (st.infoFor a).wdinfo) (altFilter (st.infoFor a).wdinfo (head m >>> 4)) a.post
              (st'.plain.drop (st'.tabFor a <<< 4)) r' (a.stem ++ m.str).length) E := by
        intro m r'
        by_cases hm : m ∈ l
        · obtain ⟨E, hE⟩ := rus_part_two t h h' hw hw' ha hinf hfx hfx' (altFilter (st.infoFor a).wdinfo (head m >>> 4)) (hin m hm) r'
          exact ⟨E, fun _ => hE⟩
        · exact ⟨[], fun hm' => absurd hm' hm⟩
      choose LM hLM using hex
      refine ⟨l.flatMap fun m => (wildRests r m.str).flatMap fun r' => LM m r', fun σ reg => ?_⟩
      have hlen : l.length % 256 = l.length := Nat.mod_eq_of_lt (Nat.lt_of_le_of_lt i6 m1.count)
      have hE : ∀ table : List Byte, (∀ m ∈ l, ∀ r', Emits 48 reg (a.stem ++ m.str)
            (rusFlex (rusWildOut (regOf reg) a.id (st.infoFor a).wdinfo) (altFilter (st.infoFor a).wdinfo (head m >>> 4)) a.post
              table r' (a.stem ++ m.str).length) (LM m r')) →
          Emits 48 reg a.stem (rusMixLoop (fun powers mix =>
            scanString (fun inflex n => rusFlex (rusWildOut (regOf reg) a.id (st.infoFor a).wdinfo) (altFilter (st.infoFor a).wdinfo powers) a.post
              table inflex n) r mix a.stem.length) l.length ((l.map fun m => head m :: m.str).flatten ++ mrest))
            (l.flatMap fun m => (wildRests r m.str).flatMap fun r' => LM m r') := by
        intro table hm'
        refine rusMixLoop_ser (cap := 48) (reg := reg) (w := a.stem) head (EM := fun m => (wildRests r m.str).flatMap fun r' => LM m r') mrest l hhead ?_
        intro m hm
        refine scanString_emits (E := fun r' => LM m r') r m.str a.stem ?_ (hw.mixes a ha hinf _ (hin m hm)) ?_
        · have := hw.bare a ha hinf _ (hin m hm)
          simp only [List.length_append]; omega
        · intro r'
          exact hm' m hm r'
      constructor
      · refine (hE _ fun m hm r' => (hLM m r' hm σ reg).1).congr ?_
        intro buf s _ _
        simp only [rusWildTarget, hload, bind, Option.bind, hft, hfx, hswap, mixSer, List.cons_append, getbyte]
        rw [show (mixOf (D.alts a.mtoffs)).length % 256 = l.length from hlen]
      · refine (hE _ fun m hm r' => (hLM m r' hm σ reg).2).congr ?_
        intro buf s _ _
        simp only [rusWildTarget, hload', bind, Option.bind, hft', hfx', ← hsw, mixSer, List.cons_append, getbyte, hwd]
        rw [show (mixOf (D.alts a.mtoffs)).length % 256 = l.length from hlen]
  · rw [if_neg hinf] at hfx hfx'
    refine ⟨if r.isEmpty || isAsterisk r then [rusEv a.id (st.infoFor a).wdinfo a.stem ⟨0, 0xff, 0, 0⟩] else [], fun σ reg => ?_⟩
    have hboth : ∀ f : WildRun σ, (∀ st, f st = if r.isEmpty || isAsterisk r then rusWildOut (regOf reg) a.id (st'.infoFor a).wdinfo a.stem.length ⟨0, 0xff, 0, 0⟩ st else some (0, st)) →
        Emits 48 reg a.stem f (if r.isEmpty || isAsterisk r then [rusEv a.id (st.infoFor a).wdinfo a.stem ⟨0, 0xff, 0, 0⟩] else []) := by
      intro f hf
      by_cases hr : (r.isEmpty || isAsterisk r) = true
      · rw [if_pos hr, ← hwd]
        refine (rusOut_emits (cap := 48) reg a.id (st'.infoFor a).wdinfo a.stem ⟨0, 0xff, 0, 0⟩ (by omega)).congr ?_
        intro buf s _ _
        rw [hf, if_pos hr]
      · rw [if_neg hr]
        refine Emits.done.congr ?_
        intro buf s _ _
        rw [hf, if_neg hr]
    constructor
    · refine hboth _ fun s => ?_
      simp only [rusWildTarget, hload, bind, Option.bind, hft, hfx, ← hwd]
      rfl
    · refine hboth _ fun s => ?_
      simp only [rusWildTarget, hload', bind, Option.bind, hft', hfx']
      rfl

section
variable {α : Type} (g : α → α)

theorem Forest.mapv_chars : ∀ f : Forest α, (f.mapv g).chars = f.chars
  | .nil => rfl
  | .cons ch v sub rest => by simp only [Forest.mapv, Forest.chars, Forest.mapv_chars rest]

theorem Forest.mapv_child (ch : Byte) : ∀ f : Forest α, (f.mapv g).child ch = (f.child ch).map (Tree.mapv g)
  | .nil => rfl
  | .cons c v sub rest => by
    simp only [Forest.mapv, Forest.child, Forest.mapv_child ch rest]
    split <;> rfl

/-- The order of the visits does not depend on the values. -/
theorem wildOrder_mapv : ∀ (fuel : Nat) (t : Tree α) (str : List Byte), wildOrder fuel (t.mapv g) str = wildOrder fuel t str
  | 0, _, _ => by simp only [wildOrder]
  | fuel + 1, t, [] => by simp only [wildOrder, Tree.mapv, Option.isSome_map]
  | fuel + 1, t, c :: rest => by
    have hk : ∀ r, (fun ch => (((t.kids.mapv g).child ch).map fun t' => (wildOrder fuel t' r).map fun h => (ch :: h.1, h.2)).getD [])
        = fun ch => ((t.kids.child ch).map fun t' => (wildOrder fuel t' r).map fun h => (ch :: h.1, h.2)).getD [] := by
      intro r
      funext ch
      rw [Forest.mapv_child, Option.map_map]
      congr 2
      funext t'
      simp only [Function.comp, wildOrder_mapv fuel t' r]
    have hr := wildOrder_mapv fuel t rest
    simp only [Tree.mapv] at hr
    simp only [wildOrder, Tree.mapv, Option.isSome_map, Forest.mapv_chars, hk, hr]
    rw [show (((t.kids.mapv g).child c).map fun t' => (wildOrder fuel t' rest).map fun h => (c :: h.1, h.2)).getD []
      = ((t.kids.child c).map fun t' => (wildOrder fuel t' rest).map fun h => (c :: h.1, h.2)).getD [] from congrFun (hk rest) c]
end

/-- More fuel changes nothing. -/
theorem wildOrder_fuel {α : Type} : ∀ (fuel : Nat) (t : Tree α) (str : List Byte), str.length + t.kids.depth < fuel →
    wildOrder (fuel + 1) t str = wildOrder fuel t str
  | 0, _, _, h => by omega
  | fuel + 1, t, [], _ => by simp only [wildOrder]
  | fuel + 1, t, c :: rest, h => by
    simp only [List.length_cons] at h
    have hk : ∀ r, r.length ≤ rest.length + 1 → (fun ch => ((t.kids.child ch).map fun t' => (wildOrder (fuel + 1) t' r).map fun h => (ch :: h.1, h.2)).getD [])
        = fun ch => ((t.kids.child ch).map fun t' => (wildOrder fuel t' r).map fun h => (ch :: h.1, h.2)).getD [] := by
      intro r hr
      funext ch
      cases hc : t.kids.child ch with
      | none => rfl
      | some t' =>
        have := Forest.child_depth hc
        rw [Option.map_some, Option.map_some, wildOrder_fuel fuel t' r (by omega)]
    have hz : (if rest ≠ [] then wildOrder (fuel + 1) t rest else []) = if rest ≠ [] then wildOrder fuel t rest else [] := by
      split
      · rw [wildOrder_fuel fuel t rest (by omega)]
      · rfl
    rw [wildOrder, wildOrder.eq_3]
    rw [hz, hk rest (by omega), hk (c :: rest) (by simp),
      show ((t.kids.child c).map fun t' => (wildOrder (fuel + 1) t' rest).map fun h => (c :: h.1, h.2)).getD []
        = ((t.kids.child c).map fun t' => (wildOrder fuel t' rest).map fun h => (c :: h.1, h.2)).getD [] from congrFun (hk rest (by omega)) c]

theorem wildOrder_enough {α : Type} (t : Tree α) (str : List Byte) {fuel fuel' : Nat} (h : str.length + t.kids.depth < fuel)
    (h' : str.length + t.kids.depth < fuel') : wildOrder fuel t str = wildOrder fuel' t str := by
  have key : ∀ d, wildOrder (str.length + t.kids.depth + 1 + d) t str = wildOrder (str.length + t.kids.depth + 1) t str := by
    intro d
    induction d with
    | zero => rfl
    | succ d ih => rw [← ih]; exact wildOrder_fuel (str.length + t.kids.depth + 1 + d) _ _ (by omega)
  rw [show fuel = str.length + t.kids.depth + 1 + (fuel - (str.length + t.kids.depth + 1)) by omega, key,
    show fuel' = str.length + t.kids.depth + 1 + (fuel' - (str.length + t.kids.depth + 1)) by omega, key]

theorem Emits.of_eq {σ ε : Type} {cap : Nat} {reg : ε → σ → Option σ} {w : List Byte} {f : WildRun σ} {E F : List ε} (h : Emits cap reg w f E) (he : E = F) :
    Emits cap reg w f F := he ▸ h

/-- A search with the entries of articles. -/
theorem wild_one {α ε : Type} [DecidableEq α] {A : List Byte} {as : List α} {stem : α → List Byte} {ent : α → Entry}
    (h : DictOk A (as.map fun a => (stem a, ent a)))
    (T : ∀ σ : Type, (ε → σ → Option σ) → WildTarget σ) {EV : α → List Byte → List ε} {cap : Nat} (hcap0 : 0 < cap)
    (hT : ∀ a ∈ as, ∀ (r : List Byte) (σ : Type) (reg : ε → σ → Option σ),
      Emits cap reg (stem a) (T σ reg (ent a).nlexid (ent a).oclass r (ent a).stpost (stem a).length) (EV a r))
    (hcap : ∀ a ∈ as, (stem a).length < cap) (tl : List Byte) (htl : tl ≠ []) (str : List Byte)
    {l0 : List (List Byte × Entry)} {f : Nat → Nat} (hl : (as.map fun a => (stem a, ent a)) = reclAll f l0) {back : Entry → α}
    (hback : ∀ k e, (k, e) ∈ l0 → back e ∈ as ∧ stem (back e) = k ∧ ent (back e) = e.recl f) (fuel : Nat)
    (hfuel : str.length + (fileAll l0).kids.depth < fuel) (σ : Type) (reg : ε → σ → Option σ) :
    Emits cap reg [] (wildScan (T σ reg) (stemImage (fileAll (as.map fun a => (stem a, ent a))) ++ tl) str)
      ((wildOrder fuel (fileAll l0) str).flatMap fun v => ((filedUnder l0 v.1).filter fun e => e.admits v.2).flatMap fun e => EV (back e) v.2) := by
  let EVc : Entry → List Byte → List Byte → List ε := fun e k r => ((as.find? fun a => stem a = k ∧ ent a = e).map fun a => EV a r).getD []
  have hEV : ∀ a ∈ as, ∀ r, EVc (ent a) (stem a) r = EV a r := by
    intro a ha r
    cases hf : as.find? fun b => stem b = stem a ∧ ent b = ent a with
    | none => exact absurd (List.find?_eq_none.1 hf a ha) (by simp)
    | some b =>
      have hb := List.find?_some hf
      simp only [decide_eq_true_eq] at hb
      have hbm := List.mem_of_find?_eq_some hf
      simp only [EVc, hf, Option.map_some, Option.getD_some]
      have e1 := hT b hbm r _ (fun e s => some (s ++ [e]))
      rw [hb.1, hb.2] at e1
      exact emits_leads (Nat.le_of_lt (hcap a ha)) e1 (hT a ha r _ _) fun st y h => h
  obtain ⟨L, l1, -, -, l4⟩ := wildScan_dict (cap := cap) (reg := reg) h (target := T σ reg) (EV := EVc)
    (by
      intro k e r hk
      obtain ⟨a, ha, he⟩ := List.mem_map.1 hk
      simp only [Prod.mk.injEq] at he
      obtain ⟨rfl, rfl⟩ := he
      rw [hEV a ha]
      exact hT a ha r σ reg)
    (by
      rintro ⟨k, e⟩ hk
      obtain ⟨a, ha, he⟩ := List.mem_map.1 hk
      simp only [Prod.mk.injEq] at he
      obtain ⟨rfl, rfl⟩ := he
      exact hcap a ha)
    hcap0 tl htl str
  have hdep : str.length + (fileAll l0).kids.depth < (stemImage (fileAll (reclAll f l0)) ++ tl).length + str.length + 1 := by
    have h1 := Forest.depth_le_ser entriesSer entriesLen (fileAll (reclAll f l0)).kids
    have h2 : (fileAll (reclAll f l0)).kids.depth = (fileAll l0).kids.depth := by
      rw [fileAll_recl, Tree.mapv]
      generalize (fileAll l0).kids = F
      show (F.mapv _).depth = F.depth
      induction F with
      | nil => rfl
      | cons ch v sub rest i1 i2 => simp only [Forest.mapv, Forest.depth, i1, i2]
    simp only [stemImage, Tree.ser, List.length_append]
    omega
  rw [hl] at l4 l1 ⊢
  rw [fileAll_recl, wildOrder_mapv, ← fileAll_recl, wildOrder_enough (fileAll l0) str hdep hfuel] at l4
  rw [← l4]
  refine l1.of_eq ?_
  refine flatMap_congr' fun v _ => ?_
  rw [filedUnder_recl, List.filter_map, List.flatMap_map]
  refine flatMap_congr' fun e he => ?_
  have he := mem_filedUnder.1 (List.mem_of_mem_filter he)
  obtain ⟨b1, b2, b3⟩ := hback _ _ he
  rw [← b3, ← b2]
  exact hEV _ b1 _

/-- A search in two dictionaries of the same articles. -/
theorem wild_two {α ε : Type} [DecidableEq α] {A A' : List Byte} {as as' : List α} {stem : α → List Byte} {ent ent' : α → Entry}
    (hm : Spec.Moved (fun a b => stem a = stem b ∧ (ent a).SameKey (ent b) ∧ a ≠ b) as as')
    (hs : ∀ a ∈ as, (ent' a).recl (fun _ => 0) = (ent a).recl (fun _ => 0))
    (h : DictOk A (as.map fun a => (stem a, ent a))) (h' : DictOk A' (as'.map fun a => (stem a, ent' a)))
    (T T' : ∀ σ : Type, (ε → σ → Option σ) → WildTarget σ) {EV : α → List Byte → List ε} {cap : Nat} (hcap0 : 0 < cap)
    (hT : ∀ a ∈ as, ∀ (r : List Byte) (σ : Type) (reg : ε → σ → Option σ),
      Emits cap reg (stem a) (T σ reg (ent a).nlexid (ent a).oclass r (ent a).stpost (stem a).length) (EV a r) ∧
      Emits cap reg (stem a) (T' σ reg (ent' a).nlexid (ent' a).oclass r (ent' a).stpost (stem a).length) (EV a r))
    (hcap : ∀ a ∈ as, (stem a).length < cap) (tl tl' : List Byte) (htl : tl ≠ []) (htl' : tl' ≠ []) (str : List Byte) :
    ∃ E : List ε, ∀ (σ : Type) (reg : ε → σ → Option σ),
      Emits cap reg [] (wildScan (T σ reg) (stemImage (fileAll (as.map fun a => (stem a, ent a))) ++ tl) str) E ∧
      Emits cap reg [] (wildScan (T' σ reg) (stemImage (fileAll (as'.map fun a => (stem a, ent' a))) ++ tl') str) E := by
  have hp := hm.perm
  by_cases hne : as = []
  · have hne' : as' = [] := by
      have := hp.length_eq
      rw [hne] at this
      exact List.length_eq_zero_iff.1 this.symm
    subst hne
    subst hne'
    have key : ∀ (T : ∀ σ : Type, (ε → σ → Option σ) → WildTarget σ) (tl : List Byte), tl ≠ [] → ∀ {A} (_ : DictOk A []) (σ : Type) (reg : ε → σ → Option σ),
        Emits cap reg [] (wildScan (T σ reg) (stemImage (fileAll []) ++ tl) str) [] := by
      intro T tl htl A h σ reg
      obtain ⟨L, l1, l2, -, -⟩ := wildScan_dict (cap := cap) (reg := reg) h (target := T σ reg) (EV := fun _ _ _ => [])
        (by intro k e r hk; simp at hk) (by simp) hcap0 tl htl str
      have : L = [] := by
        cases L with
        | nil => rfl
        | cons v L => have := (l2 v.1 v.2).1 (by simp); simp at this
      subst this
      exact l1
    exact ⟨[], fun σ reg => ⟨key T tl htl h σ reg, key T' tl' htl' h' σ reg⟩⟩
  obtain ⟨d, hd⟩ := List.exists_mem_of_ne_nil _ hne
  set ent0 : α → Entry := fun a => { ent a with oclass := as.idxOf a } with hent0
  set f : Nat → Nat := fun n => ((as[n]?).map fun a => (ent a).oclass).getD 0 with hf
  set f' : Nat → Nat := fun n => ((as[n]?).map fun a => (ent' a).oclass).getD 0 with hf'
  have hidx : ∀ a ∈ as, as[as.idxOf a]? = some a := fun a ha => by
    rw [List.getElem?_eq_getElem (List.idxOf_lt_length_iff.2 ha), List.getElem_idxOf]
  have he : ∀ a ∈ as, ent a = (ent0 a).recl f := by
    intro a ha
    simp only [Entry.recl, hent0, hf, hidx a ha, Option.map_some, Option.getD_some]
  have he' : ∀ a ∈ as, ent' a = (ent0 a).recl f' := by
    intro a ha
    have := hs a ha
    simp only [Entry.recl, Entry.mk.injEq] at this
    obtain ⟨k1, k2, k3, -, k5⟩ := this
    simp only [Entry.recl, hent0, hf', hidx a ha, Option.map_some, Option.getD_some]
    rw [← k1, ← k2, ← k3, ← k5]
  have hl : (as.map fun a => (stem a, ent a)) = reclAll f (as.map fun a => (stem a, ent0 a)) := by
    rw [reclAll, List.map_map]
    apply List.map_congr_left
    intro a ha
    rw [he a ha]; rfl
  have hl' : (as'.map fun a => (stem a, ent' a)) = reclAll f' (as'.map fun a => (stem a, ent0 a)) := by
    rw [reclAll, List.map_map]
    apply List.map_congr_left
    intro a ha
    rw [he' a (hp.mem_iff.2 ha)]; rfl
  have hperm : Spec.Moved Tied (as.map fun a => (stem a, ent0 a)) (as'.map fun a => (stem a, ent0 a)) :=
    hm.map _ fun a _ b _ hab => ⟨hab.1, hab.2.1, fun e => hab.2.2 (by rw [e])⟩
  let back : Entry → α := fun e => (as[e.oclass]?).getD d
  have hb0 : ∀ a ∈ as, back (ent0 a) = a := by
    intro a ha
    simp only [back, hent0, hidx a ha, Option.getD_some]
  have hfile := fileAll_order hperm
  have r1 := wild_one h T hcap0 (EV := EV) (fun a ha r σ reg => (hT a ha r σ reg).1) hcap tl htl str hl (back := back) (by
    intro k e hk
    obtain ⟨a, ha, hk⟩ := List.mem_map.1 hk
    simp only [Prod.mk.injEq] at hk
    obtain ⟨rfl, rfl⟩ := hk
    rw [hb0 a ha]
    exact ⟨ha, rfl, he a ha⟩) _ (Nat.lt_succ_self _)
  have r2 := wild_one h' T' hcap0 (EV := EV) (fun a ha r σ reg => (hT a (hp.mem_iff.2 ha) r σ reg).2) (fun a ha => hcap a (hp.mem_iff.2 ha)) tl' htl' str hl' (back := back) (by
    intro k e hk
    obtain ⟨a, ha, hk⟩ := List.mem_map.1 hk
    simp only [Prod.mk.injEq] at hk
    obtain ⟨rfl, rfl⟩ := hk
    have ha1 := hp.mem_iff.2 ha
    rw [hb0 a ha1]
    exact ⟨ha, rfl, he' a ha1⟩) _ (Nat.lt_succ_self _)
  refine ⟨_, fun σ reg => ⟨r1 σ reg, ?_⟩⟩
  rw [hfile]
  refine (r2 σ reg).of_eq ?_
  refine flatMap_congr' fun v _ => ?_
  rw [← filedUnder_order hperm]

end Libmorph

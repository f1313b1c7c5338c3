import Verif.Spec.RusForms
import Verif.Lemmas.RusLoad
import Verif.Lemmas.EngForms
import Verif.Lemmas.History
import Verif.Lemmas.FormRun
import Verif.Lemmas.RusApi
/-
The traversal of a flexion table: endings in descending order, and the forms put out.
-/
namespace Libmorph
open Libmorph.Spec

theorem Forest.mem_entries_head {α : Type} {f : Forest α} {x : α} {k : List Byte} (h : (x, k) ∈ f.entries) :
    ∃ ch cs, k = ch :: cs ∧ ch ∈ f.chars := by
  induction f generalizing x k with
  | nil => simp [Forest.entries] at h
  | cons ch v sub rest _ ihr =>
    simp only [Forest.entries, List.mem_append, List.mem_map, Option.mem_toList, Option.map_eq_some_iff] at h
    rcases h with (⟨p, _, h2⟩ | ⟨y, _, h2⟩) | h
    · injection h2 with _ h3; exact ⟨ch, _, h3.symm, by simp [Forest.chars]⟩
    · injection h2 with _ h3; exact ⟨ch, _, h3.symm, by simp [Forest.chars]⟩
    · obtain ⟨c, cs, h1, h2⟩ := ihr h
      exact ⟨c, cs, h1, by simp [Forest.chars, h2]⟩

theorem Forest.entries_desc {α : Type} (f : Forest α) (hd : f.Desc) :
    f.entries.Pairwise fun p q => bytesLt q.2 p.2 = true := by
  induction f with
  | nil => simp [Forest.entries]
  | cons ch v sub rest ihs ihr =>
    obtain ⟨h1, h2, h3⟩ := hd
    simp only [Forest.entries, List.append_assoc]
    rw [List.pairwise_append]
    refine ⟨?_, ?_, ?_⟩
    · rw [List.pairwise_map]
      exact (ihs h2).imp fun h => by simpa [bytesLt] using h
    · rw [List.pairwise_append]
      refine ⟨?_, ihr h3, ?_⟩
      · cases v <;> simp
      · intro p hp q hq
        simp only [Option.mem_toList, Option.map_eq_some_iff] at hp
        obtain ⟨y, _, rfl⟩ := hp
        obtain ⟨c, cs, e1, e2⟩ := Forest.mem_entries_head (x := q.1) (k := q.2) hq
        have := h1 c e2
        rw [e1]; simp [bytesLt, this]
    · intro p hp q hq
      simp only [List.mem_map] at hp
      obtain ⟨p', hp', rfl⟩ := hp
      rw [List.mem_append] at hq
      rcases hq with hq | hq
      · simp only [Option.mem_toList, Option.map_eq_some_iff] at hq
        obtain ⟨y, _, rfl⟩ := hq
        obtain ⟨c, cs, e1, _⟩ := Forest.mem_entries_head (x := p'.1) (k := p'.2) hp'
        simp [bytesLt, e1]
      · obtain ⟨c, cs, e1, e2⟩ := Forest.mem_entries_head (x := q.1) (k := q.2) hq
        have := h1 c e2
        rw [e1]; simp [bytesLt, this]

/-- The strings of a tree come in strictly descending order. -/
theorem Tree.entries_desc {α : Type} (t : Tree α) (hd : t.kids.Desc) :
    t.entries.Pairwise fun p q => bytesLt q.2 p.2 = true := by
  simp only [Tree.entries]
  rw [List.pairwise_append]
  refine ⟨Forest.entries_desc _ hd, by cases t.val <;> simp, ?_⟩
  intro p hp q hq
  simp only [Option.mem_toList, Option.map_eq_some_iff] at hq
  obtain ⟨y, _, rfl⟩ := hq
  obtain ⟨c, cs, e1, _⟩ := Forest.mem_entries_head (x := p.1) (k := p.2) hp
  simp [bytesLt, e1]

theorem foldl_putEnding_depth (n : Nat) (h : List (List Byte × FlexInfo)) (hl : ∀ p ∈ h, p.1.length ≤ n) :
    ∀ t : Tree (List FlexInfo), t.kids.depth ≤ n → (h.foldl putEnding t).kids.depth ≤ n := by
  induction h with
  | nil => intro t ht; exact ht
  | cons p h ih =>
    intro t ht
    exact ih (fun q hq => hl q (by simp [hq])) _ (Tree.depth_insert _ _ _ _ (hl p (by simp)) ht)

theorem createTree_depth {ftab : List Byte} {d tf n : Nat} {t : Tree (List FlexInfo)}
    (h : createTree ftab d tf 0 0xff [] Tree.empty = some t)
    (hl : ∀ e g fl, Ending ftab tf e g fl → e.length ≤ n) : t.kids.depth ≤ n := by
  obtain ⟨hs, h1, h2⟩ := createTree_hist ftab d tf 0 0xff [] Tree.empty t h
  rw [h1]
  refine foldl_putEnding_depth n hs ?_ _ (by simp [Tree.empty, Forest.depth])
  intro p hp
  obtain ⟨w', g, f, e1, e2, _⟩ := (h2 p.1 p.2).1 hp
  simp only [List.nil_append] at e2
  rw [e2]; exact hl _ _ _ e1

/-- The description meets the request. -/
def meets (fx g : FlexInfo) : Bool := decide (g.gramm = fx.gramm ∧ g.flags &&& fx.flags ≠ 0)

/-- What the traversal does at one ending. -/
def flexFormA (cap : Nat) (pre suf : List Byte) (fx : FlexInfo) (l : List FlexInfo) (flex : List Byte)
    (s : List Byte × Int) : Option (Option Int × (List Byte × Int)) :=
  if l.any (meets fx) then
    match putForm cap s.1 pre flex suf with
    | some out => some (none, (out, s.2 + 1))
    | none => some (some (-1), s)
  else some (none, s)

theorem flexFormLoop_ser (cap : Nat) (pre flex suf : List Byte) (fx : FlexInfo) (l : List FlexInfo)
    (h : ∀ g ∈ l, g.gramm < 65536 ∧ g.flags < 256) (tl : List Byte) : ∀ s,
    flexFormLoop cap pre flex suf fx l.length ((l.map gramSer).flatten ++ tl) s = flexFormA cap pre suf fx l flex s := by
  induction l with
  | nil => intro s; simp [flexFormLoop, flexFormA]
  | cons g l ih =>
    intro s
    obtain ⟨h1, h2⟩ := h g (by simp)
    simp only [List.length_cons, List.map_cons, List.flatten_cons, List.append_assoc, flexFormLoop, gramSer,
      bind, Option.bind, getword16_putword16 h1, List.cons_append, List.nil_append, getbyte,
      Nat.mod_eq_of_lt h2]
    by_cases hm : g.gramm = fx.gramm ∧ g.flags &&& fx.flags ≠ 0
    · rw [if_pos hm]
      simp only [flexFormA, List.any_cons, meets, hm, ne_eq, not_false_eq_true, and_self, decide_true, Bool.true_or, if_true]
      cases putForm cap s.1 pre flex suf <;> rfl
    · rw [if_neg hm, ih (fun x hx => h x (by simp [hx])) s]
      have : meets fx g = false := by simp only [meets, decide_eq_false_iff_not]; exact hm
      simp only [flexFormA, List.any_cons, this, Bool.false_or]

/-- The forms of a list of endings. -/
def formsWith (pre suf : List Byte) (es : List (List Byte)) : List (List Byte) := es.map fun e => pre ++ e ++ suf

theorem putForm_eq (cap : Nat) (out pre flex suf : List Byte) :
    putForm cap out pre flex suf
      = if out.length + ((pre ++ flex ++ suf).length + 1) ≤ cap then some (out ++ (pre ++ flex ++ suf ++ [0])) else none :=
  coll4 cap out pre flex suf

/-- The run over the endings: all forms fit, or the answer is -1. -/
theorem runForms (cap : Nat) (pre suf : List Byte) (fx : FlexInfo) (l : List (List FlexInfo × List Byte)) :
    ∀ (out : List Byte) (n : Int),
      (out.length + (packed (formsWith pre suf ((l.filter fun p => p.1.any (meets fx)).map (·.2)))).length ≤ cap →
        runHits (fun x k => flexFormA cap pre suf fx x k) l (out, n)
          = some (none, (out ++ packed (formsWith pre suf ((l.filter fun p => p.1.any (meets fx)).map (·.2))),
              n + ((l.filter fun p => p.1.any (meets fx)).length : Int)))) ∧
      (out.length ≤ cap → cap < out.length + (packed (formsWith pre suf ((l.filter fun p => p.1.any (meets fx)).map (·.2)))).length →
        ∃ o m, runHits (fun x k => flexFormA cap pre suf fx x k) l (out, n) = some (some (-1), (o, m))) := by
  induction l with
  | nil =>
    intro out n
    refine ⟨fun _ => by simp [runHits, formsWith, packed], fun h1 h2 => ?_⟩
    simp [formsWith, packed] at h2; omega
  | cons p l ih =>
    intro out n
    obtain ⟨x, k⟩ := p
    by_cases hx : x.any (meets fx) = true
    · simp only [List.filter_cons, hx, if_true, List.map_cons, formsWith, packed_cons, runHits, flexFormA, putForm_eq]
      have hlen : (pre ++ k ++ suf ++ [0]).length = (pre ++ k ++ suf).length + 1 := by simp; omega
      constructor
      · intro hfit
        simp only [List.length_append, List.length_cons, List.length_nil] at hfit
        rw [if_pos (by simp only [List.length_append]; omega)]
        obtain ⟨i1, _⟩ := ih (out ++ (pre ++ k ++ suf ++ [0])) (n + 1)
        have := i1 (by
          simp only [List.length_append, List.length_cons, List.length_nil, formsWith]
          omega)
        simp only [bind, Option.bind, formsWith] at this ⊢
        rw [this]
        simp only [List.append_assoc, List.cons_append, List.nil_append, List.length_cons, Option.some.injEq, Prod.mk.injEq, true_and]
        push_cast; omega
      · intro h1 hbig
        simp only [List.length_append, List.length_cons, List.length_nil] at hbig
        by_cases hf : out.length + ((pre ++ k ++ suf).length + 1) ≤ cap
        · rw [if_pos hf]
          obtain ⟨_, i2⟩ := ih (out ++ (pre ++ k ++ suf ++ [0])) (n + 1)
          simp only [List.length_append] at hf
          obtain ⟨o, m, e⟩ := i2 (by simp only [List.length_append, List.length_cons, List.length_nil]; omega) (by
            simp only [List.length_append, List.length_cons, List.length_nil, formsWith]
            omega)
          exact ⟨o, m, by simp only [bind, Option.bind]; exact e⟩
        · rw [if_neg hf]
          exact ⟨out, n, by simp [bind, Option.bind]⟩
    · have hx' : x.any (meets fx) = false := by simpa using hx
      simp only [List.filter_cons, hx', runHits, flexFormA, bind, Option.bind, Bool.false_eq_true, if_false]
      exact ih out n

/-- The forms of the table at a reference. -/
theorem rusFlexForms_table {ftab B : List Byte} {tf : Nat} (hok : FlexOk ftab B tf)
    (hl : ∀ e g fl, Ending ftab tf e g fl → e.length ≤ 64) {img : List Byte} (himg : plainTable ftab tf = some img)
    (hsz : img.length < 2 ^ 32) (fx : FlexInfo) :
    ∃ es : List (List Byte),
      (∀ e, e ∈ es ↔ ∃ fl, Ending ftab tf e fx.gramm fl ∧ fl &&& fx.flags ≠ 0) ∧
      (es.Pairwise fun p q => bytesLt q p = true) ∧
      ∀ (cap : Nat) (pre suf tl out : List Byte), 
        (out.length + (packed (formsWith pre suf es)).length ≤ cap →
          rusFlexForms cap (img ++ tl) pre suf fx out = some ((es.length : Int), out ++ packed (formsWith pre suf es))) ∧
        (out.length ≤ cap → cap < out.length + (packed (formsWith pre suf es)).length →
          ∃ o, rusFlexForms cap (img ++ tl) pre suf fx out = some (-1, o)) := by
  simp only [plainTable, Option.map_eq_some_iff] at himg
  obtain ⟨t, ht, rfl⟩ := himg
  obtain ⟨hd, hf, hn, hch⟩ := createTree_find hok.bytes ht
  have hgrams : ∀ k x, t.find k = some x → GramsOk x := by
    intro k x hx
    obtain ⟨h1, _, h3⟩ := hf k x hx
    refine ⟨hok.few k x h1 (fun e he => (h3 e).1 he), fun g hg => ?_⟩
    exact Spec.Ending.ok hok.bytes ((h3 g).1 hg)
  have hall : t.All GramsOk := Tree.all_of_find hd hgrams
  have hlen := Tree.ser_length .u8 gramsSer gramsLen t GramsOk gramsSer_length hall
  have hgood : t.Good .u8 gramsLen :=
    Tree.good_of (A := B) hd (hch _ hok.endings) (by exact hok.alpha) (fun x hx => (hok.letters x hx).2) (by omega)
  refine ⟨(t.entries.filter fun p => p.1.any (meets fx)).map (·.2), ?_, ?_, ?_⟩
  · intro e
    simp only [List.mem_map, List.mem_filter, List.any_eq_true, meets, decide_eq_true_eq]
    constructor
    · rintro ⟨⟨x, k⟩, ⟨h1, g, hg, h2, h3⟩, rfl⟩
      rw [Tree.mem_entries_iff t hd] at h1
      refine ⟨g.flags, ?_, h3⟩
      rw [← h2]
      exact ((hf _ _ h1).2.2 g).1 hg
    · rintro ⟨fl, h1, h2⟩
      cases hfi : t.find e with
      | none => exact absurd h1 ((hn e).1 hfi _ _)
      | some x =>
        exact ⟨(x, e), ⟨(Tree.mem_entries_iff t hd x e).2 hfi, ⟨fx.gramm, fl⟩, ((hf _ _ hfi).2.2 _).2 h1, rfl, h2⟩, rfl⟩
  · rw [List.pairwise_map]
    exact (Tree.entries_desc t hd).filter _
  · intro cap pre suf tl out
    have key : getTrack .u8 (fun p tr s => do
        let (n, p) ← getbyte p
        flexFormLoop cap pre tr suf fx n p s) none 0x40 (t.ser .u8 gramsSer gramsLen ++ tl) [] (out, (0 : Int))
        = runHits (fun x k => flexFormA cap pre suf fx x ([] ++ k)) t.entries (out, (0 : Int)) := by
      refine getTrack_all .u8 gramsSer gramsLen GramsOk _ (fun x k s => flexFormA cap pre suf fx x k s) ?_ gramsSer_length t 0x40 [] tl _ hall hgood
        (createTree_depth ht hl)
      intro x hx tl tr s
      simp only [gramsSer, putserial_short (show x.length < 128 by have := hx.1; omega), List.cons_append, List.nil_append,
        List.append_assoc, getbyte, bind, Option.bind]
      exact flexFormLoop_ser cap pre tr suf fx x hx.2 tl s
    simp only [List.nil_append] at key
    have hlen : ((t.entries.filter fun p => p.1.any (meets fx)).map (·.2)).length
        = (t.entries.filter fun p => p.1.any (meets fx)).length := by simp
    obtain ⟨r1, r2⟩ := runForms cap pre suf fx t.entries out 0
    constructor
    · intro h1
      rw [rusFlexForms, key, r1 h1]
      simp
    · intro h0 h1
      obtain ⟨o, m, e⟩ := r2 h0 h1
      exact ⟨o, by rw [rusFlexForms, key, e]; rfl⟩

/-- The first alternant with a bit of the mask. -/
theorem findAlt_ser (mask : Nat) (head : Mix → Nat) (l : List Mix) (hh : ∀ m ∈ l, head m &&& 0x0f = m.str.length) (tl : List Byte) :
    findAlt mask l.length ((l.map fun m => head m :: m.str).flatten ++ tl)
      = some none ∧ (∀ m ∈ l, head m &&& mask = 0) ∨
    ∃ l1 m l2 rest, l = l1 ++ m :: l2 ∧ (∀ m ∈ l1, head m &&& mask = 0) ∧ head m &&& mask ≠ 0 ∧
      findAlt mask l.length ((l.map fun m => head m :: m.str).flatten ++ tl) = some (some (head m, m.str ++ rest)) := by
  induction l with
  | nil => left; simp [findAlt]
  | cons m l ih =>
    simp only [List.length_cons, List.map_cons, List.flatten_cons, List.cons_append, findAlt, getbyte, bind, Option.bind]
    by_cases hm : head m &&& mask ≠ 0
    · right
      rw [if_pos hm]
      exact ⟨[], m, l, _, rfl, by simp, hm, by rw [List.append_assoc]; rfl⟩
    · rw [if_neg hm, hh m (by simp), List.append_assoc, List.drop_left]
      rcases ih (fun x hx => hh x (by simp [hx])) with ⟨h1, h2⟩ | ⟨l1, m', l2, rest, h1, h2, h3, h4⟩
      · left
        refine ⟨h1, fun x hx => ?_⟩
        rcases List.mem_cons.1 hx with rfl | hx
        · simpa using hm
        · exact h2 x hx
      · right
        refine ⟨m :: l1, m', l2, rest, by simp [h1], fun x hx => ?_, h3, h4⟩
        rcases List.mem_cons.1 hx with rfl | hx
        · simpa using hm
        · exact h2 x hx

/-- The powers of an alternant in the image are the levels it serves. -/
theorem mixHead_serves (hist : List (List Byte × Nat)) (hok : MixOk hist) {m : Mix} (hm : m ∈ mixOf hist) (k : Nat) :
    ((mixHead (spareBits (mixOf hist)) m) >>> 4).testBit k = true ↔ Serves hist m.str k := by
  obtain ⟨i1, i2, i3, i4, i5, i6⟩ := mixOf_inv hist hok.levels
  obtain ⟨k0, hk0⟩ := i3 m hm
  rw [(mixHead_spec _ m (hok.short _ hk0) (i2 m hm)).2.2 k, i5 m hm, i5 m hm, Serves]
  refine or_congr_right (and_congr_right fun _ => and_congr_right fun _ => ?_)
  constructor
  · intro h s' hs'
    obtain ⟨m', hm', e⟩ := i4 _ hs'
    have := h m' hm'
    have h2 := (i5 m' hm' k).2 (by rw [e]; exact hs')
    rw [this] at h2; exact absurd h2 (by simp)
  · intro h m' hm'
    have := h m'.str
    rw [← i5 m' hm'] at this
    simpa using this

/-- The alternant chosen for a request. -/
theorem altFor_spec (hist : List (List Byte × Nat)) (hok : MixOk hist) (rest : List Byte) (lextem : RusStem) (fx : FlexInfo) :
    (altFor lextem (mixSer (mixOf hist) ++ rest) fx = some none ∧
      ∀ x, ¬ Serves hist x (Spec.altLevel lextem.wdinfo fx.gramm fx.flags - 1)) ∨
    ∃ x head rest', altFor lextem (mixSer (mixOf hist) ++ rest) fx = some (some (head, x ++ rest')) ∧ head &&& 0x0f = x.length ∧
      x.length < 16 ∧ (∃ k, (x, k) ∈ hist) ∧
      Serves hist x (Spec.altLevel lextem.wdinfo fx.gramm fx.flags - 1) ∧
      ∀ y, Serves hist y (Spec.altLevel lextem.wdinfo fx.gramm fx.flags - 1) → y = x ∨ bytesLt x y = true := by
  obtain ⟨i1, i2, i3, i4, i5, i6⟩ := mixOf_inv hist hok.levels
  have hcount : (mixOf hist).length < 256 := by have := hok.count; omega
  have hhead : ∀ m ∈ mixOf hist, mixHead (spareBits (mixOf hist)) m &&& 0x0f = m.str.length := by
    intro m hm
    obtain ⟨k, hk⟩ := i3 m hm
    exact (mixHead_spec _ m (hok.short _ hk) (i2 m hm)).2.1
  set lvl := Spec.altLevel lextem.wdinfo fx.gramm fx.flags with hlvl
  obtain ⟨l1, l3⟩ := C28_levels lextem.wdinfo fx.gramm fx.flags
  rw [swapLevel_eq, ← hlvl] at l1 l3
  have hbit : ∀ m ∈ mixOf hist, mixHead (spareBits (mixOf hist)) m &&& (0x08 <<< lvl) ≠ 0 ↔ Serves hist m.str (lvl - 1) := by
    intro m hm
    rw [← mixHead_serves hist hok hm]
    have e : (0x08 <<< lvl) = 2 ^ (lvl - 1 + 4) := by
      obtain ⟨j, hj⟩ : ∃ j, lvl = j + 1 := ⟨lvl - 1, by omega⟩
      rw [hj, Nat.shiftLeft_eq, Nat.add_sub_cancel, Nat.pow_succ, Nat.pow_add]
      omega
    rw [e, and_two_pow_if, Nat.testBit_shiftRight, Nat.add_comm 4]
    have := Nat.two_pow_pos (lvl - 1 + 4)
    cases (mixHead (spareBits (mixOf hist)) m).testBit (lvl - 1 + 4) <;> simp
  have hser : ∀ x k, Serves hist x k → ∃ m ∈ mixOf hist, m.str = x := by
    intro x k hx
    rcases hx with h | h
    · exact i4 _ h
    · exact i4 _ h.1
  have hread : altFor lextem (mixSer (mixOf hist) ++ rest) fx
      = findAlt (0x08 <<< lvl) (mixOf hist).length
          (((mixOf hist).map fun m => mixHead (spareBits (mixOf hist)) m :: m.str).flatten ++ rest) := by
    simp only [altFor, mixSer, List.cons_append, getbyte, bind, Option.bind, Nat.mod_eq_of_lt hcount, hlvl, swapLevel_eq]
  rw [hread]
  rcases findAlt_ser (0x08 <<< lvl) (fun m => mixHead (spareBits (mixOf hist)) m) (mixOf hist) hhead rest with
    ⟨h1, h2⟩ | ⟨l1', m, l2, rest', h1, h2, h3, h4⟩
  · left
    refine ⟨h1, fun x hx => ?_⟩
    obtain ⟨m, hm, rfl⟩ := hser _ _ hx
    exact (hbit m hm).2 hx (h2 m hm)
  · right
    have hm : m ∈ mixOf hist := by rw [h1]; simp
    obtain ⟨k, hk⟩ := i3 m hm
    refine ⟨m.str, _, rest', h4, hhead m hm, hok.short _ hk, ⟨k, hk⟩, (hbit m hm).1 h3, ?_⟩
    intro y hy
    obtain ⟨m', hm', rfl⟩ := hser _ _ hy
    have hy' := (hbit m' hm').2 hy
    rw [h1] at hm'
    rcases List.mem_append.1 hm' with h5 | h5
    · exact absurd (h2 m' h5) hy'
    · rcases List.mem_cons.1 h5 with rfl | h5
      · exact Or.inl rfl
      · right
        rw [MixSorted, h1, List.pairwise_append, List.pairwise_cons] at i1
        exact i1.2.1.1 m' h5

theorem joinWith_parts (T : CharTab) (w : List Byte) : joinWith (wordParts T w) (w.filter fun c => T.ctype c = ctDlm) = w := by
  induction w with
  | nil => simp [wordParts, joinWith]
  | cons c w ih =>
    simp only [wordParts]
    by_cases hc : T.ctype c = ctDlm
    · rw [if_pos hc, List.filter_cons, if_pos (by simpa using hc)]
      cases hp : wordParts T w with
      | nil => exact absurd hp (wordParts_ne T w)
      | cons p ps =>
        rw [joinWith, ← hp, ih]; rfl
    · rw [if_neg hc, List.filter_cons, if_neg (by simpa using hc)]
      cases hp : wordParts T w with
      | nil => exact absurd hp (wordParts_ne T w)
      | cons p ps =>
        rw [hp] at ih
        simp only
        cases ps with
        | nil => simp only [joinWith] at ih ⊢; rw [ih]
        | cons q qs =>
          cases hd : w.filter fun c => T.ctype c = ctDlm with
          | nil => rw [hd] at ih; simp only [joinWith, List.cons_append] at ih ⊢; rw [ih]
          | cons d ds => rw [hd] at ih; simp only [joinWith, List.cons_append] at ih ⊢; rw [ih]

theorem rusUpper_text : ∀ c < 256, c ≠ 0 → rusTab.ctype c ≠ ctDlm →
    rusTab.ctype (rusTab.upper c) ≠ ctDlm ∧ rusTab.upper c ≠ 0 ∧ rusTab.upper c < 256 := by
  decide +kernel

theorem capSet_rusPrinted (w tail : List Byte) (d : Nat) (hd : d ≤ 2) (hw : Text w) :
    capSet rusTab (w ++ 0 :: tail) w.length d = some (rusPrinted d w ++ 0 :: tail) ∧ (rusPrinted d w).length = w.length := by
  obtain ⟨w1, h1, h2, h3⟩ := C16_parts rusTab rusTab_ok rusTab_upOk w tail d hd hw
  obtain ⟨w2, h4, h5⟩ := C16_only_case rusTab rusTab_ok rusTab_upOk w tail d hw
  have he : w1 = w2 := by
    rw [h1] at h4
    simpa using h4
  subst he
  have hf : (w.filter fun c => rusTab.ctype c = ctDlm) = w1.filter fun c => rusTab.ctype c = ctDlm := by
    clear h1 h2 h3 h4
    induction h5 with
    | nil => rfl
    | @cons a b l1 l2 hab _ ih =>
      rw [List.filter_cons, List.filter_cons, ih (fun b hb => hw b (by simp [hb]))]
      have ha := hw a (by simp)
      rcases hab with rfl | ⟨h6, rfl⟩
      · rfl
      · have := rusUpper_text a ha.2 ha.1 h6
        rw [if_neg (by simpa using h6), if_neg (by simpa using this.1)]
  have : rusPrinted d w = w1 := by
    simp only [rusPrinted, ← h3]
    rw [hf, joinWith_parts]
  rw [this]
  exact ⟨h1, h2⟩

/-! ### Articles -/

variable {A : List Byte} {D : RusDict} {st : RusState}

theorem and_ff_mod (w : Nat) : w % 256 = w &&& 0xff := (Nat.and_two_pow_sub_one_eq_mod w 8).symm

theorem rus_info_byte (st : RusState) (a : RusArticle) : (st.infoFor a).wdinfo % 256 = a.wdinfo % 256 := by
  rw [and_ff_mod, and_ff_mod, rus_info_and st a 0xff (by decide) (by decide)]

theorem getGramInfo_stored (st : RusState) (a : RusArticle) (i : Nat) :
    getGramInfo (st.infoFor a).wdinfo i = getGramInfo a.wdinfo i := by
  simp only [getGramInfo, rus_info_byte]

theorem RusOk.stemText (h : RusOk A D st) {a : RusArticle} (ha : a ∈ D.arts) : Text a.stem := by
  intro b hb
  have := h.letters b (h.stems a ha b hb)
  exact ⟨by omega, this.2⟩

theorem RusOk.postText (h : RusOk A D st) {a : RusArticle} (ha : a ∈ D.arts) : Text a.post := by
  intro b hb
  have := h.text a ha b hb
  exact ⟨by omega, this.2⟩

theorem Text.append {a b : List Byte} (ha : Text a) (hb : Text b) : Text (a ++ b) := by
  intro c hc
  rcases List.mem_append.1 hc with h | h
  · exact ha c h
  · exact hb c h

theorem rus_swap (st : RusState) {a : RusArticle} (hm : a.mtoffs ≠ 0) {img : List Byte}
    (hd : D.mtab.drop a.mtoffs = img) : (st.infoFor a).swapTable (st.images D.mtab).mxTables = some img := by
  have hmt' : (st.infoFor a).mtoffs ≠ 0 := hm
  rw [RusStem.swapTable, if_pos hmt', ← hd]; rfl

/-- `GetWordForms` on an inflected article. -/
theorem rusWordForms_inflected (h : RusOk A D st) {a : RusArticle} (ha : a ∈ D.arts) (hinf : a.Inflected) (fx : FlexInfo) :
    ∃ fs : List (List Byte), D.FormsOf a fx fs ∧ (∀ f ∈ fs, Text f) ∧
      ∀ (cap : Nat) (out : List Byte),
        (out.length + (packed fs).length ≤ cap →
          rusWordForms (st.images D.mtab) cap a.stem a.post (st.infoFor a) fx out = some ((fs.length : Int), out ++ packed fs)) ∧
        (out.length ≤ cap → cap < out.length + (packed fs).length →
          ∃ o, rusWordForms (st.images D.mtab) cap a.stem a.post (st.infoFor a) fx out = some (-1, o)) := by
  obtain ⟨B, hB⟩ := h.tables a ha hinf
  obtain ⟨ht0, ht1, img, rest, himg, hsz, hdrop⟩ := rus_table_at h ha hinf
  have hfx := rus_info_flex h ha
  rw [if_pos hinf, hdrop] at hfx
  have hfx' : (st.infoFor a).flexTable (st.images D.mtab).flexTree = some (img ++ rest) := hfx
  obtain ⟨es, e1, e2, e3⟩ := rusFlexForms_table hB (h.long a ha hinf) himg (by omega) fx
  have hes : D.EndingsFor a fx es := ⟨e1, e2⟩
  have hetext : ∀ e ∈ es, Text e := by
    intro e he b hb
    obtain ⟨fl, hfl, _⟩ := (e1 e).1 he
    have := hB.letters b (hB.endings e _ _ hfl b hb)
    exact ⟨by omega, this.2⟩
  by_cases hmt : a.mtoffs = 0
  · have hswap : (st.infoFor a).swapTable (st.images D.mtab).mxTables = none := by
      simp [RusStem.swapTable, RusState.infoFor, hmt]
    refine ⟨formsWith a.stem a.post es, Or.inl ⟨[], es, by simp [RusDict.AltFor, hmt], hes, by simp [formsWith]⟩, ?_, ?_⟩
    · intro f hf
      obtain ⟨e, he, rfl⟩ := List.mem_map.1 hf
      exact ((h.stemText ha).append (hetext e he)).append (h.postText ha)
    · intro cap out
      simp only [rusWordForms, hfx', hswap]
      have := e3 cap a.stem a.post rest out
      rw [show (formsWith a.stem a.post es).length = es.length by simp [formsWith]]
      exact this
  · obtain ⟨m1, m2, mrest, m3⟩ := h.mixes a ha hmt
    have hswap := rus_swap (D := D) st hmt m3
    have hsl := swapLevel_stored st a fx.gramm fx.flags
    rcases altFor_spec (D.alts a.mtoffs) m1 mrest (st.infoFor a) fx with ⟨k1, k2⟩ | ⟨x, head, rest', k1, k2, k3, ⟨kk, k4⟩, k5, k6⟩
    · rw [hsl] at k2
      refine ⟨[], Or.inr ⟨fun x hx => ?_, rfl⟩, by simp, ?_⟩
      · simp only [RusDict.AltFor, if_neg hmt] at hx
        exact k2 x hx.1
      · intro cap out
        simp only [rusWordForms, hfx', hswap, k1, bind, Option.bind, pure, packed_nil]
        refine ⟨fun _ => by simp, fun h1 h2 => ?_⟩
        simp at h2; omega
    · rw [hsl] at k5 k6
      refine ⟨formsWith (a.stem ++ x) a.post es,
        Or.inl ⟨x, es, by simp only [RusDict.AltFor, if_neg hmt]; exact ⟨k5, k6⟩, hes, by simp [formsWith]⟩, ?_, ?_⟩
      · intro f hf
        obtain ⟨e, he, rfl⟩ := List.mem_map.1 hf
        refine (((h.stemText ha).append ?_).append (hetext e he)).append (h.postText ha)
        intro b hb
        have := m2 _ k4 b hb
        exact ⟨by omega, this.2⟩
      · intro cap out
        have hst := h.short a ha
        simp only [rusWordForms, hfx', hswap, k1, bind, Option.bind]
        rw [if_neg (by omega), if_neg (by simp; omega), k2, List.take_left]
        have := e3 cap (a.stem ++ x) a.post rest out
        rw [show (formsWith (a.stem ++ x) a.post es).length = es.length by simp [formsWith]]
        exact this

theorem rusWordForms_plain (im : RusImages) (pre suf : List Byte) (lextem : RusStem) (fx : FlexInfo) (cap : Nat) (out : List Byte)
    (hfx : lextem.flexTable im.flexTree = none) :
    (out.length + (packed [pre ++ suf]).length ≤ cap →
      rusWordForms im cap pre suf lextem fx out = some (1, out ++ packed [pre ++ suf])) ∧
    (cap < out.length + (packed [pre ++ suf]).length → ∃ o, rusWordForms im cap pre suf lextem fx out = some (-1, o)) := by
  have := coll4 cap out pre [] suf
  simp only [collAppend, List.append_nil] at this
  have key : (((collAppend cap out pre).bind fun o => collAppend cap o suf).bind fun o => collAppend cap o [0])
      = if out.length + ((pre ++ suf).length + 1) ≤ cap then some (out ++ (pre ++ suf ++ [0])) else none := by
    simp only [collAppend]
    repeat' split
    all_goals (try simp only [Option.bind_some, Option.bind_none, List.length_append, List.length_singleton] at *)
    all_goals (repeat' split)
    all_goals (try simp only [Option.bind_some, Option.bind_none, List.length_append, List.length_singleton] at *)
    all_goals (repeat' split)
    all_goals (try simp only [List.length_append, List.length_singleton] at *)
    all_goals (first | omega | simp)
  simp only [rusWordForms, hfx, key, packed_cons, packed_nil]
  constructor
  · intro h1
    rw [if_pos (by simp only [List.length_append, List.length_cons, List.length_nil] at h1 ⊢; omega)]
  · intro h1
    rw [if_neg (by simp only [List.length_append, List.length_cons, List.length_nil] at h1 ⊢; omega)]
    exact ⟨out, rfl⟩

/-- One call of `FormBuild`, given what `GetWordForms` does. -/
theorem rusFormBuild_forms (im : RusImages) (i : Nat) (stem suf : List Byte) (lextem : RusStem) (B : List Byte) (d : Nat) (hd : d ≤ 2)
    (hcap : lextem.minCap = d) (fs : List (List Byte)) (hfs : ∀ f ∈ fs, Text f)
    (hgo : ¬ (getGramInfo lextem.wdinfo i = noInfo ∧ i ≠ 0xff) ∧ ¬ ((lextem.tfoffs ≠ 0) ≠ (i ≠ 0xff)))
    (hw : ((packed fs).length ≤ 256 → rusWordForms im 256 stem suf lextem (getGramInfo lextem.wdinfo i) []
        = some ((fs.length : Int), packed fs)) ∧
      (256 < (packed fs).length → ∃ o, rusWordForms im 256 stem suf lextem (getGramInfo lextem.wdinfo i) [] = some (-1, o))) :
    FormStep (rusFormBuild im i stem suf lextem) fs (fs.map (rusPrinted d)) B := by
  have hb : ∀ {c : Coder} {x : List Byte}, c.Holds B x → ∃ b, c.buf = some b ∧ b.length = B.length := by
    intro c x hc
    rw [Holds.final hc]
    refine ⟨_, rfl, ?_⟩
    rcases hc.buf with ⟨h1, _⟩ | ⟨h1, h2, _⟩
    · simp [h1]
    · rw [if_neg h1]; simp; omega
  refine ⟨by simp, ?_, ?_⟩
  · intro x s hs hsz hfit
    simp only [rusFormBuild, if_neg hgo.1, if_neg hgo.2, hw.1 hsz, bind, Option.bind]
    by_cases h0 : fs = []
    · subst h0
      refine ⟨s.pforms, ?_, by simpa [packed] using hs⟩
      simp [retInt]
    · have hpos : 0 < fs.length := List.length_pos_iff.2 h0
      rw [if_neg (by omega), Int.toNat_natCast, hcap]
      have := (formCopyLoop_gen rusTab d (rusPrinted d) (fun f tail hf => capSet_rusPrinted f tail d hd hf) B [] fs hfs s x hs).1 hfit
      simpa using this
  · intro x s hs hne hbad
    by_cases hsz : (packed fs).length ≤ 256
    · simp only [rusFormBuild, if_neg hgo.1, if_neg hgo.2, hw.1 hsz, bind, Option.bind]
      have hpos : 0 < fs.length := List.length_pos_iff.2 hne
      rw [if_neg (by omega), Int.toNat_natCast, hcap]
      have := (formCopyLoop_gen rusTab d (rusPrinted d) (fun f tail hf => capSet_rusPrinted f tail d hd hf) B [] fs hfs s x hs).2 hne
        (by omega)
      simpa using this
    · obtain ⟨o, ho⟩ := hw.2 (by omega)
      simp only [rusFormBuild, if_neg hgo.1, if_neg hgo.2, ho, bind, Option.bind]
      refine ⟨s.pforms, s.nbuilt, ?_, hb hs⟩
      simp [retInt, LEMMBUFF_FAILED]

theorem rusFormBuild_none (im : RusImages) (i : Nat) (stem suf : List Byte) (lextem : RusStem) (B : List Byte)
    (hgo : (getGramInfo lextem.wdinfo i = noInfo ∧ i ≠ 0xff) ∨ ((lextem.tfoffs ≠ 0) ≠ (i ≠ 0xff))) :
    FormStep (rusFormBuild im i stem suf lextem) [] [] B := by
  have : ∀ s, rusFormBuild im i stem suf lextem s = some (none, s) := by
    intro s
    simp only [rusFormBuild]
    split
    · rfl
    · rename_i h1
      rw [if_pos (hgo.resolve_left h1)]; rfl
  refine ⟨rfl, ?_, fun x s hs h => absurd rfl h⟩
  intro x s hs _ _
  exact ⟨s.pforms, by rw [this]; simp, by simpa [packed] using hs⟩

/-- The step of `BuildForm`. -/
theorem rusFormBuild_built (h : RusOk A D st) {a : RusArticle} (ha : a ∈ D.arts) (i : Nat) :
    ∃ fs, D.BuiltForms a i fs ∧ (∀ f ∈ fs, Text f) ∧
      ∀ B, FormStep (rusFormBuild (st.images D.mtab) i a.stem a.post (st.infoFor a)) fs (fs.map (rusPrinted a.demand)) B := by
  have hgi := getGramInfo_stored st a i
  have htf : ((st.infoFor a).tfoffs ≠ 0) ↔ (a.tfoffs ≠ 0) := not_congr (rus_tab_zero h ha)
  by_cases hp : a.pos = 51
  · have ht := (h.prepos a ha hp).2.1
    simp only [RusDict.BuiltForms, if_pos hp]
    by_cases hi : i = 255 ∨ getGramInfo a.wdinfo i = noInfo
    · refine ⟨[], by rw [if_pos hi], by simp, fun B => ?_⟩
      apply rusFormBuild_none
      rw [hgi]
      by_cases h2 : i = 255
      · right; simp [htf, ht, h2]
      · left; exact ⟨hi.resolve_left h2, h2⟩
    · refine ⟨[a.stem ++ a.post], by rw [if_neg hi], ?_, fun B => ?_⟩
      · intro f hf
        rw [List.mem_singleton.1 hf]
        exact (h.stemText ha).append (h.postText ha)
      · push Not at hi
        refine rusFormBuild_forms _ _ _ _ _ _ _ a.demand_le (rus_info_minCap st a) _ ?_ ?_ ?_
        · intro f hf
          rw [List.mem_singleton.1 hf]
          exact (h.stemText ha).append (h.postText ha)
        · rw [hgi]
          exact ⟨fun h1 => hi.2 h1.1, by simp [htf, ht, hi.1]⟩
        · have hfx : (st.infoFor a).flexTable (st.images D.mtab).flexTree = none := by
            have := rus_info_flex h ha
            rwa [if_neg (fun hh => hh.2 hp)] at this
          have := rusWordForms_plain (st.images D.mtab) a.stem a.post (st.infoFor a)
            (getGramInfo (st.infoFor a).wdinfo i) 256 [] hfx
          simpa using this
  · simp only [RusDict.BuiltForms, if_neg hp, RusDict.FoundForms]
    by_cases hinf : a.Inflected
    · simp only [if_pos hinf]
      by_cases hi : i = 255 ∨ getGramInfo a.wdinfo i = noInfo
      · refine ⟨[], by rw [if_pos hi], by simp, fun B => ?_⟩
        apply rusFormBuild_none
        rw [hgi]
        by_cases h2 : i = 255
        · right; simp [htf, hinf.1, h2]
        · left; exact ⟨hi.resolve_left h2, h2⟩
      · simp only [if_neg hi]
        push Not at hi
        obtain ⟨fs, f1, f2, f3⟩ := rusWordForms_inflected h ha hinf (getGramInfo a.wdinfo i)
        refine ⟨fs, f1, f2, fun B => ?_⟩
        refine rusFormBuild_forms _ _ _ _ _ _ _ a.demand_le (rus_info_minCap st a) _ f2 ?_ ?_
        · rw [hgi]
          exact ⟨fun h1 => hi.2 h1.1, by simp [htf, hinf.1, hi.1]⟩
        · rw [hgi]
          have := f3 256 []
          simpa using this
    · simp only [if_neg hinf]
      have ht0 : a.tfoffs = 0 := by
        by_contra hc; exact hinf ⟨hc, hp⟩
      by_cases hi : i = 255
      · refine ⟨[a.stem ++ a.post], by rw [if_pos hi], ?_, fun B => ?_⟩
        · intro f hf
          rw [List.mem_singleton.1 hf]
          exact (h.stemText ha).append (h.postText ha)
        · refine rusFormBuild_forms _ _ _ _ _ _ _ a.demand_le (rus_info_minCap st a) _ ?_ ?_ ?_
          · intro f hf
            rw [List.mem_singleton.1 hf]
            exact (h.stemText ha).append (h.postText ha)
          · exact ⟨fun h1 => h1.2 hi, by simp [htf, ht0, hi]⟩
          · have hfx : (st.infoFor a).flexTable (st.images D.mtab).flexTree = none := by
              have := rus_info_flex h ha
              rwa [if_neg hinf] at this
            have := rusWordForms_plain (st.images D.mtab) a.stem a.post (st.infoFor a)
              (getGramInfo (st.infoFor a).wdinfo i) 256 [] hfx
            simpa using this
      · refine ⟨[], by rw [if_neg hi], by simp, fun B => ?_⟩
        apply rusFormBuild_none
        right; simp [htf, ht0, hi]

/-- The step of `FindForms`. -/
theorem rusFormBuild_found (h : RusOk A D st) {a : RusArticle} (ha : a ∈ D.arts) (i : Nat) :
    ∃ fs, D.FoundForms a i fs ∧ (∀ f ∈ fs, Text f) ∧
      ∀ B, FormStep (rusFormBuild (st.images D.mtab) i a.stem a.post (st.heardInfo a)) fs (fs.map (rusPrinted a.demand)) B := by
  by_cases hinf : a.Inflected
  · obtain ⟨fs, f1, f2, f3⟩ := rusFormBuild_built h ha i
    simp only [RusDict.BuiltForms, if_neg hinf.2] at f1
    refine ⟨fs, f1, f2, ?_⟩
    simpa only [RusState.heardInfo, if_pos hinf] using f3
  · simp only [RusState.heardInfo, if_neg hinf, RusDict.FoundForms]
    have hfx : (⟨(st.infoFor a).wdinfo, 0, 0⟩ : RusStem).flexTable (st.images D.mtab).flexTree = none := by
      simp [RusStem.flexTable]
    have hcap : (⟨(st.infoFor a).wdinfo, 0, 0⟩ : RusStem).minCap = a.demand := rus_info_minCap st a
    by_cases hi : i = 255
    · refine ⟨[a.stem ++ a.post], by rw [if_pos hi], ?_, fun B => ?_⟩
      · intro f hf
        rw [List.mem_singleton.1 hf]
        exact (h.stemText ha).append (h.postText ha)
      · refine rusFormBuild_forms _ _ _ _ _ _ _ a.demand_le hcap _ ?_ ?_ ?_
        · intro f hf
          rw [List.mem_singleton.1 hf]
          exact (h.stemText ha).append (h.postText ha)
        · exact ⟨fun h1 => h1.2 hi, by simp [hi]⟩
        · have := rusWordForms_plain (st.images D.mtab) a.stem a.post ⟨(st.infoFor a).wdinfo, 0, 0⟩
            (getGramInfo (st.infoFor a).wdinfo i) 256 [] hfx
          simpa using this
    · refine ⟨[], by rw [if_neg hi], by simp, fun B => ?_⟩
      apply rusFormBuild_none
      right; simp [hi]

end Libmorph

import Verif.Props.C96
import Verif.Props.C84
/-
C83 and C96 for the objects of the Russian library for other code pages.
-/
namespace Libmorph
open Spec

variable {A A' : List Byte} {D D' : RusDict} {st st' : RusState} {P : Page}

/-- What the word is for the library: converted it has at most eight parts, or it cannot be converted. -/
def WordIn (P : Page) (w : List Byte) : Prop := ∀ t, P.into formLength w = some t → (wordParts rusTab t).length ≤ 8

theorem capGet_nil_rus : capGet rusTab formLength [] = some (some ([], 256)) := by decide +kernel

theorem rusPrepareIn_ok {w lo : List Byte} {dwsets scheme : Nat} (hparts : WordIn P w)
    (h : rusPrepareIn P w dwsets = some (.ok (lo, scheme))) : lo.length < 48 ∧ scheme >>> 16 = lo.length := by
  simp only [rusPrepareIn, rusCanonicIn] at h
  by_cases hw : w.length = 0
  · rw [if_pos hw] at h; simp at h
  · rw [if_neg hw] at h
    cases ht : P.into formLength w with
    | none => rw [ht] at h; simp at h
    | some t =>
      rw [ht] at h
      by_cases h0 : t = []
      · subst h0
        simp only [capGet_nil_rus, bind, Option.bind] at h
        rw [if_neg (by decide), if_neg (by simp)] at h
        simp only [pure, Option.some.injEq, Except.ok.injEq, Prod.mk.injEq] at h
        obtain ⟨rfl, rfl⟩ := h
        decide
      · have : rusPrepare t dwsets = some (.ok (lo, scheme)) := by
          rw [← h]
          simp only [rusPrepare, rusCanonic]
          rw [if_neg (fun k => h0 (List.length_eq_zero_iff.1 k))]
          rfl
        exact rusPrepare_ok (hparts t ht) this

theorem SameClass.formBuildIn {im im' : RusImages} {c c' : RusStem} (h : SameClass im im' c c') (P : Page) (idform : Nat) (stem suffix : List Byte) (s : FormState) :
    rusFormBuildIn P im idform stem suffix c s = rusFormBuildIn P im' idform stem suffix c' s := by
  rw [rusFormBuildIn, rusFormBuildIn]
  have hz : (c.tfoffs ≠ 0) = (c'.tfoffs ≠ 0) := propext (not_congr h.zero)
  simp only [h.wordForms, h.wdinfo, h.minCap, hz]

theorem SameClass.lemmCallIn {im im' : RusImages} {c c' : RusStem} (h : SameClass im im' c c') (P : Page) (dwsets nlexid : Nat) (stem suffix : List Byte)
    (grs : List Gram) (s : LemmState) :
    rusLemmCallIn P im dwsets nlexid c stem suffix grs s = rusLemmCallIn P im' dwsets nlexid c' stem suffix grs s := by
  cases grs with
  | nil => rfl
  | cons g grs =>
    have hf : rusLemmFormIn P im dwsets stem suffix c ⟨g.grInfo, g.bFlags⟩ = rusLemmFormIn P im' dwsets stem suffix c' ⟨g.grInfo, g.bFlags⟩ := by
      funext merge s
      simp only [rusLemmFormIn, h.dictForms, h.minCap]
    simp only [rusLemmCallIn, hf, h.put]

theorem rusScan_free (t : TwoOrders D D') (h : RusOk A D st) (h' : RusOk A' D' st') (w junk junk' : List Byte) (hw : w.length < 48) (scheme dwsets : Nat)
    (hs : scheme >>> 16 = w.length) {σ ρ : Type} (build : RusImages → Nat → RusStem → List Byte → List Byte → List Gram → σ → Option (Option ρ × σ))
    (ht : ∀ id d d' stem suffix grs s, SameClass (st.images D.mtab) (st'.images D'.mtab) d d' →
      build (st.images D.mtab) id d stem suffix grs s = build (st'.images D'.mtab) id d' stem suffix grs s) (s : σ) :
    rusScan (st.images D.mtab) w junk scheme dwsets (fun id d inflex suffix grs s => build (st.images D.mtab) id d (stemOf w junk inflex) suffix grs s) s
      = rusScan (st'.images D'.mtab) w junk' scheme dwsets (fun id d inflex suffix grs s => build (st'.images D'.mtab) id d (stemOf w junk' inflex) suffix grs s) s := by
  rw [rusScan_past h w junk junk' hw scheme dwsets hs _
    (fun id d inflex suffix grs s => build (st.images D.mtab) id d (stemOf w junk' inflex) suffix grs s)
    (fun id d a b n suffix grs s e => by rw [stemOf_tail w a b junk n e, stemOf_tail w a b junk' n e])]
  exact rusScan_two t h h' w junk' hw scheme dwsets hs _ _ (fun id d d' inflex suffix grs s hd => ht id d d' (stemOf w junk' inflex) suffix grs s hd) s

theorem free_checkIn (t : TwoOrders D D') (h : RusOk A D st) (h' : RusOk A' D' st') (w junk junk' : List Byte) (dwsets : Nat) (hparts : WordIn P w) :
    rusCheckIn P (st.images D.mtab) junk w dwsets = rusCheckIn P (st'.images D'.mtab) junk' w dwsets := by
  rw [rusCheckIn, rusCheckIn]
  cases hp : rusPrepareIn P w dwsets with
  | none => simp only [bind, Option.bind]
  | some r =>
    cases r with
    | error e => simp only [bind, Option.bind]
    | ok p =>
      obtain ⟨lo, scheme⟩ := p
      obtain ⟨k1, k2⟩ := rusPrepareIn_ok hparts hp
      simp only [bind, Option.bind]
      have := rusScan_free (σ := Unit) (ρ := Int) t h h' lo junk junk' k1 scheme dwsets k2 (fun _ _ _ _ _ _ s => some (some 1, s)) (fun _ _ _ _ _ _ _ _ => rfl) ()
      rw [this]

theorem free_lemmatizeIn (t : TwoOrders D D') (h : RusOk A D st) (h' : RusOk A' D' st') (w junk junk' : List Byte) (dwsets : Nat) (hparts : WordIn P w)
    (L : Option (List Lemm)) (B : Option (List Byte)) (G : Option (List Gram)) :
    rusLemmatizeIn P (st.images D.mtab) junk w L B G dwsets = rusLemmatizeIn P (st'.images D'.mtab) junk' w L B G dwsets := by
  rw [rusLemmatizeIn, rusLemmatizeIn]
  cases hp : rusPrepareIn P w dwsets with
  | none => simp only [bind, Option.bind]
  | some r =>
    cases r with
    | error e => simp only [bind, Option.bind]
    | ok p =>
      obtain ⟨lo, scheme⟩ := p
      obtain ⟨k1, k2⟩ := rusPrepareIn_ok hparts hp
      simp only [bind, Option.bind]
      have := rusScan_free t h h' lo junk junk' k1 scheme dwsets k2
        (fun im id lextem stem suffix grs s => rusLemmCallIn P im dwsets id lextem stem suffix grs s)
        (fun id d d' stem suffix grs s hd => hd.lemmCallIn P dwsets id stem suffix grs s) ⟨L, 0, ⟨B, 0⟩, G, 0, 0⟩
      rw [this]

theorem free_findFormsIn (t : TwoOrders D D') (h : RusOk A D st) (h' : RusOk A' D' st') (w junk junk' : List Byte) (idform dwsets : Nat) (hparts : WordIn P w)
    (B : Option (List Byte)) :
    rusFindFormsIn P (st.images D.mtab) junk B w idform dwsets = rusFindFormsIn P (st'.images D'.mtab) junk' B w idform dwsets := by
  rw [rusFindFormsIn, rusFindFormsIn]
  cases hp : rusPrepareIn P w dwsets with
  | none => simp only [bind, Option.bind]
  | some r =>
    cases B with
    | none => simp only [bind, Option.bind]
    | some B =>
      cases r with
      | error e => simp only [bind, Option.bind]
      | ok p =>
        obtain ⟨lo, scheme⟩ := p
        obtain ⟨k1, k2⟩ := rusPrepareIn_ok hparts hp
        simp only [bind, Option.bind]
        have := rusScan_free t h h' lo junk junk' k1 scheme dwsets k2
          (fun im _ lextem stem suffix _ s => rusFormBuildIn P im idform stem suffix lextem s)
          (fun id d d' stem suffix grs s hd => hd.formBuildIn P idform stem suffix s) ⟨⟨some B, 0⟩, 0⟩
        rw [this]

theorem free_buildFormIn (t : TwoOrders D D') (h : RusOk A D st) (h' : RusOk A' D' st') (hi : RusIdsOk D st) (hi' : RusIdsOk D' st') (junk junk' : List Byte)
    (id idform : Nat) (hid : id < 2 ^ 32) (hj : (lexkey id).length + junk.length = 16) (hj' : (lexkey id).length + junk'.length = 16)
    (B : Option (List Byte)) : rusBuildFormIn P (st.images D.mtab) junk B id idform = rusBuildFormIn P (st'.images D'.mtab) junk' B id idform := by
  simp only [rusBuildFormIn]
  rw [past_lid h hi junk junk' id hj hj']
  cases B with
  | none => rfl
  | some B =>
    by_cases hB : B.length = 0
    · simp only [hB, if_true]
    · simp only [hB, if_false]
      by_cases hex : ∃ a ∈ D.arts, a.id = id
      · obtain ⟨pos, a, ha, -, h2, h2', -, -, h3, h3'⟩ := rus_lid_two t h h' hi hi' junk' id hj' hex
        simp only [h2, h2', bind, Option.bind_some, formLength, h3, h3', rusBuildClassIn, rus_load h ha, rus_load h' (t.arts.perm.mem_iff.1 ha),
          (same_class t h h' ha).formBuildIn]
      · have e1 := rus_lid_absent h hi junk' id hid hj' (fun a ha k => hex ⟨a, ha, k⟩)
        have e2 := rus_lid_absent h' hi' junk' id hid hj' (fun a ha k => hex ⟨a, t.arts.perm.mem_iff.2 ha, k⟩)
        simp only [e1, e2, bind, Option.bind_some]

/-- The registration for another code page sees of an event the number, the text and the form number. -/
def rusRegInE (P : Page) (e : Nat × StrMatch) (s : MatchSt) : Option MatchSt := do
  let (n, o) ← P.from1251 96 e.2.text
  (s.enter e.1).push 512 (256 * 96) (o.take n) e.2.id

theorem free_findMatchIn (t : TwoOrders D D') (h : RusOk A D st) (h' : RusOk A' D' st') (hw : RusWildOk D)
    (tail tail' smatch smatch' : List Byte) (htail : tail ≠ []) (htail' : tail' ≠ []) (hbuf : smatch.length = 48) (hbuf' : smatch'.length = 48)
    (client : List (Nat × List StrMatch) → Int) (str : List Byte) :
    rusFindMatchIn P (st.images D.mtab) tail smatch client str = rusFindMatchIn P (st'.images D'.mtab) tail' smatch' client str := by
  have hreg : rusRegIn P = regOf (rusRegInE P) := by
    funext id text g s
    simp only [rusRegIn, regOf, rusRegInE]
    cases P.from1251 96 text with
    | none => rfl
    | some o =>
      simp only [bind, Option.bind]
      cases (s.enter id).push 512 (256 * 96) (o.2.take o.1) g.idForm <;> rfl
  have key := rus_wild_scans t h h' hw tail tail' smatch smatch' htail htail' hbuf hbuf' (rusRegInE P)
  rw [← hreg] at key
  rw [rusFindMatchIn, rusFindMatchIn]
  split
  · rfl
  · split
    · rfl
    · split
      · rfl
      · simp only [bind]
        rename_i tt _
        cases capGet rusTab formLength tt with
        | none => rfl
        | some o =>
          cases o with
          | none => rfl
          | some p =>
            simp only [Option.bind]
            have := key p.1
            revert this
            generalize wildScan (rusWildTarget (st.images D.mtab) (rusRegIn P)) ((st.images D.mtab).stemtree ++ tail) p.1 (smatch, {}) = x
            generalize wildScan (rusWildTarget (st'.images D'.mtab) (rusRegIn P)) ((st'.images D'.mtab).stemtree ++ tail') p.1 (smatch', {}) = y
            intro e
            cases x <;> cases y <;> simp only [Option.map_none, Option.map_some, Option.some.injEq, Prod.mk.injEq, reduceCtorEq] at e
            · rfl
            · obtain ⟨k1, k2⟩ := e
              simp only [k1, k2]

/-- The words, converted, have at most eight parts (C15); numbers are of type `lexeme_t`. -/
def Request.OkIn (P : Page) : Request → Prop
  | .checkWord w _ => WordIn P w
  | .lemmatize w _ _ _ _ => WordIn P w
  | .findForms _ w _ _ => WordIn P w
  | .buildForm _ id _ => id < 2 ^ 32
  | .getWdInfo id => id < 2 ^ 32
  | .findMatch _ _ => True

/-- **C83** for every code page: dictionaries compiled from the same articles in two orders answer every call alike, on any two stacks. -/
theorem C83_code_page (P : Page) (t : TwoOrders D D') (h : RusOk A D st) (h' : RusOk A' D' st') (hi : RusIdsOk D st) (hi' : RusIdsOk D' st') (hw : RusWildOk D)
    (r : Request) (hr : r.OkIn P) (k k' : Stack) (hk : k.Ok) (hk' : k'.Ok) :
    rusServeIn P (st.images D.mtab) k r = rusServeIn P (st'.images D'.mtab) k' r := by
  cases r with
  | checkWord w d => simp only [rusServeIn, free_checkIn t h h' w k.word k'.word d hr]
  | lemmatize w L B G d => simp only [rusServeIn, free_lemmatizeIn t h h' w k.word k'.word d hr]
  | findForms B w i d => simp only [rusServeIn, free_findFormsIn t h h' w k.word k'.word i d hr]
  | buildForm B id i => simp only [rusServeIn, free_buildFormIn t h h' hi hi' _ _ id i hr (drop_key k hk id) (drop_key k' hk' id)]
  | getWdInfo id =>
    simp only [rusServeIn, past_wdInfo h hi _ _ id (drop_key k hk id) (drop_key k' hk' id), two_wdInfo t h h' hi hi' _ id hr (drop_key k' hk' id)]
  | findMatch client u =>
    simp only [rusServeIn, free_findMatchIn t h h' hw k.behind k'.behind k.text k'.text hk.behind hk'.behind hk.text hk'.text client u]

/-- **C96** for every code page: the stack does not show in the answer. -/
theorem C96_code_page_call (P : Page) (h : RusOk A D st) (hi : RusIdsOk D st) (hw : RusWildOk D)
    (r : Request) (hr : r.OkIn P) (k k' : Stack) (hk : k.Ok) (hk' : k'.Ok) :
    rusServeIn P (st.images D.mtab) k r = rusServeIn P (st.images D.mtab) k' r :=
  C83_code_page P ⟨rfl, rfl, Moved.refl _⟩ h h hi hi hw r hr k k' hk hk'

/-- **C96** for every code page: each caller gets the replies it would get alone. -/
theorem C96_code_page (P : Page) (h : RusOk A D st) (hi : RusIdsOk D st) (hw : RusWildOk D)
    (H : List ApiCall) (hH : ∀ c ∈ H, c.stack.Ok ∧ c.asks.OkIn P) (R : List (Nat × Reply)) (hR : history (rusServeIn P (st.images D.mtab)) H = some R)
    (who : Nat) (alone : List ApiCall) (ha : ∀ c ∈ alone, c.stack.Ok) (e : alone.map ApiCall.asks = (H.filter fun c => c.who = who).map ApiCall.asks) :
    (history (rusServeIn P (st.images D.mtab)) alone).map (fun Q => Q.map Prod.snd) = some ((R.filter fun q => q.1 = who).map Prod.snd) :=
  history_share (fun r hr k k' hk hk' => C96_code_page_call P h hi hw r hr k k' hk hk') who H alone hH ha e R hR

/-- Two calls in UTF-8 meet the conditions, on stacks of different content. -/
example : (∀ c ∈ [(⟨0, ⟨[1], List.replicate 16 2, [3], List.replicate 48 4⟩, .checkWord (inPage utf8Enc [241, 237, 224]) 0⟩ : ApiCall),
      ⟨1, ⟨[], List.replicate 16 0, [0], List.replicate 48 0⟩, .getWdInfo 1⟩], c.stack.Ok ∧ c.asks.OkIn utf8Page) ∧
    (history (rusServeIn utf8Page (rusSampleState.images rusSample.mtab))
      [⟨0, ⟨[1], List.replicate 16 2, [3], List.replicate 48 4⟩, .checkWord (inPage utf8Enc [241, 237, 224]) 0⟩,
        ⟨1, ⟨[], List.replicate 16 0, [0], List.replicate 48 0⟩, .getWdInfo 1⟩]).map List.length = some 2 := by
  constructor
  · intro c hc
    simp only [List.mem_cons, List.not_mem_nil, or_false] at hc
    rcases hc with rfl | rfl
    · refine ⟨⟨rfl, by simp, rfl⟩, ?_⟩
      intro t ht
      have : t = [241, 237, 224] := by
        have e : utf8Page.into formLength (inPage utf8Enc [241, 237, 224]) = some [241, 237, 224] := by decide +kernel
        rw [e] at ht
        simpa using ht.symm
      subst this
      decide +kernel
    · exact ⟨⟨rfl, by simp, rfl⟩, by simp [Request.OkIn]⟩
  · decide +kernel

end Libmorph

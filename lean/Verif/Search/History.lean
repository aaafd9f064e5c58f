import Verif.Search.Order
import Verif.Search.Prefix

/-!
Property C89: which translations depend on earlier uses of the decoder.
-/
namespace Thot.Search
open Thot.StrProc (Str)
open Thot.Meta (MD Segm)

variable {S : Type} [DecidableEq S]

/-- What a decoder keeps between calls: the translation metadata of the model and the container of hypotheses. (The caches of the
model are cleared by every call, C88; the score of the best complete hypothesis is set by every call.) -/
structure St (S : Type) where
  md : MD
  ms : MultiStack.MS S HypData

/-- The calls. -/
inductive Call where
  | translate (sent : Str)
  | withRef (sent ref : Str)
  | verify (sent ref : Str)
  | withPrefix (sent pref : Str)
deriving DecidableEq

/-- The mode of a call. -/
def Call.mode : Call → Mode
  | .translate _ => .trans
  | .withRef _ _ => .ref
  | .verify _ _ => .ver
  | .withPrefix _ _ => .pref

/-- `pre_trans_actions`, `pre_trans_actions_ref`, `pre_trans_actions_ver` and `pre_trans_actions_prefix` of the model: the input
variables; only the first one sets the metadata. `none`: read out of bounds (C78). _pbTransModel.h:478-680. -/
def Call.input (md : MD) : Call → Option Input
  | .translate s => (Meta.obtainTransConstraints s).map fun md' => { src := Meta.getSrcSentVec md', md := md' }
  | .withRef s r => some { src := StrProc.stringToStringVector s, md := md, ref := StrProc.stringToStringVector r }
  | .verify s r => some { src := StrProc.stringToStringVector s, md := md, ref := StrProc.stringToStringVector r }
  | .withPrefix s p =>
    some { src := StrProc.stringToStringVector s, md := md, pref := StrProc.stringToStringVector p,
           prefBlank := StrProc.lastCharIsBlank p }

/-- A call with the parameters `D`, `M` in force: the variables at its end and the metadata. _stackDecoder.h:363-557. -/
def callOn (D : Dec S) (M : Model) (st : St S) (c : Call) : Option (Loop S × MD) :=
  match c.input st.md with
  | none => none
  | some I => (translate c.mode D M I st.ms).map fun L => (L, I.md)

/-- The observable result of a call: the hypothesis returned. -/
def resultOf (D : Dec S) (M : Model) (st : St S) (c : Call) : Option Hyp := (callOn D M st c).map fun r => r.1.result

/-! ### Specification -/

/-- A decoder with stack size `size` that has done nothing. -/
def fresh (size : Nat) : St S := ⟨MD.empty, MultiStack.setMaxStackSize (MultiStack.new []) size⟩

/-- The states of a decoder after any sequence of calls, each with its own parameters, of requests for the next translation and of
changes of the stack size. The predicate `P` holds of the parameters of the decoder in every call. -/
inductive Used (P : Dec S → Prop) : St S → Prop where
  | new (n : Nat) : Used P (fresh n)
  | call {st D M c L md} : Used P st → P D → callOn D M st c = some (L, md) → Used P ⟨md, L.s.ms⟩
  | next {st : St S} {D : Dec S} {M : Model} {I : Input} {m : Mode} {b : Int} {L : Loop S} : Used P st → P D →
      nextTrans m D M I ⟨st.ms, b⟩ = some L → Used P ⟨st.md, L.s.ms⟩
  | size {st : St S} (n : Nat) : Used P st → Used P ⟨st.md, MultiStack.setMaxStackSize st.ms n⟩

/-! ### What the operations leave alone -/

theorem pushIdx_bf {ms : MultiStack.MS S HypData} {k : Nat} {h : MultiStack.Hyp S HypData} {i : Nat}
    {r : Bool × MultiStack.MS S HypData} (hr : MultiStack.pushIdx ms k h i = some r) : r.2.bf = ms.bf := by
  unfold MultiStack.pushIdx at hr
  split at hr
  · cases hr
  · split at hr
    · cases hr
    · dsimp only at hr
      split at hr
      · cases hr
      · split at hr
        · split at hr
          · split at hr
            · cases hr
            · split at hr
              · cases hr
              · injection hr with hr; subst hr; rfl
          · injection hr with hr; subst hr; rfl
        · injection hr with hr; subst hr; rfl

theorem push_bf {ms : MultiStack.MS S HypData} {h : MultiStack.Hyp S HypData} {r : Bool × MultiStack.MS S HypData}
    (hr : MultiStack.push ms h = some r) : r.2.bf = ms.bf := by
  have he : (MultiStack.ensureStack ms h.cls).bf = ms.bf := by
    unfold MultiStack.ensureStack; split <;> rfl
  have hp : ∀ r', MultiStack.pushOnSmtStack (MultiStack.ensureStack ms h.cls) h.cls h = some r' → r'.2.bf = ms.bf := by
    intro r' h'
    unfold MultiStack.pushOnSmtStack at h'
    split at h'
    · split at h'
      · injection h' with h'; subst h'; exact he
      · rw [pushIdx_bf h']; exact he
    · rw [pushIdx_bf h']; exact he
  unfold MultiStack.push at hr
  dsimp only at hr
  split at hr
  · cases hr
  · rename_i h'
    have := hp _ h'
    injection hr with hr; subst hr
    dsimp only at this ⊢
    split <;> exact this
  · rename_i h'
    have := hp _ h'
    injection hr with hr; subst hr
    dsimp only at this ⊢
    split <;> exact this

theorem pop_bf {ms : MultiStack.MS S HypData} {r : MultiStack.Elem S HypData × MultiStack.MS S HypData}
    (hr : MultiStack.pop ms = some r) : r.2.bf = ms.bf := by
  have he : ∀ s m1, MultiStack.eraseRecInfo ms s = some m1 → m1.bf = ms.bf := by
    intro s m1 h
    unfold MultiStack.eraseRecInfo at h
    split at h
    · cases h
    · injection h with h; subst h; rfl
  unfold MultiStack.pop at hr
  split at hr
  · cases hr
  · split at hr
    · cases hr
    · split at hr
      · cases hr
      · split at hr
        · cases hr
        · split at hr
          · cases hr
          · rename_i h1
            split at hr
            · cases hr
            · split at hr
              · cases hr
              · injection hr with hr; subst hr
                have := he _ _ h1
                exact this

/-- The flag of the container is false. -/
def Bfless (s : DState S) : Prop := s.ms.bf = false

theorem decPush_bf {D : Dec S} {M : Model} {n : Nat} {s : DState S} {h : Hyp} {r : Bool × DState S}
    (hr : decPush D M n s h = some r) : r.2.ms.bf = s.ms.bf := by
  unfold decPush at hr
  split at hr
  · dsimp only at hr
    split at hr
    · injection hr with hr; subst hr; rfl
    · split at hr
      · cases hr
      · rename_i h'
        injection hr with hr; subst hr
        exact push_bf h'
  · injection hr with hr; subst hr; rfl

theorem pushAll_bf {D : Dec S} {M : Model} {n : Nat} : ∀ (hs : List Hyp) {s s' : DState S}, pushAll D M n hs s = some s' →
    s'.ms.bf = s.ms.bf
  | [], s, s', h => by injection h with h; subst h; rfl
  | x :: hs, s, s', h => by
    unfold pushAll at h
    split at h
    · cases h
    · rename_i hr
      rw [pushAll_bf hs h, decPush_bf hr]

theorem decPop_bf {D : Dec S} {M : Model} {n : Nat} {s : DState S} (hb : D.breadthFirst = false) {r : Hyp × DState S}
    (hr : decPop D M n s = some r) : r.2.ms.bf = s.ms.bf := by
  unfold decPop popStored at hr
  rw [hb] at hr
  simp only [Bool.false_eq_true, if_false, Option.map_eq_some_iff] at hr
  obtain ⟨a, h1, h2⟩ := hr
  subst h2
  exact pop_bf h1

theorem popUpTo_bf {D : Dec S} {M : Model} {n : Nat} (hb : D.breadthFirst = false) : ∀ (k : Nat) {s : DState S}
    {r : List Hyp × DState S}, popUpTo D M n k s = some r → r.2.ms.bf = s.ms.bf
  | 0, s, r, h => by injection h with h; subst h; rfl
  | k + 1, s, r, h => by
    unfold popUpTo at h
    split at h
    · injection h with h; subst h; rfl
    · split at h
      · cases h
      · rename_i h1
        simp only [Option.map_eq_some_iff] at h
        obtain ⟨a, h2, h3⟩ := h
        subst h3
        dsimp only
        rw [popUpTo_bf hb k h2, decPop_bf hb h1]

theorem handle_bf {m : Mode} {D : Dec S} {M : Model} {I : Input} {L L' : Loop S} {h : Hyp} (hr : handle m D M I L h = some L') :
    L'.s.ms.bf = L.s.ms.bf := by
  unfold handle at hr
  split at hr
  · split at hr
    · injection hr with hr; subst hr; rfl
    · simp only [Option.map_eq_some_iff] at hr
      obtain ⟨a, h1, h2⟩ := hr
      subst h2
      exact decPush_bf h1
  · split at hr
    · cases hr
    · simp only [Option.map_eq_some_iff] at hr
      obtain ⟨a, h1, h2⟩ := hr
      subst h2
      exact pushAll_bf _ h1

theorem handleAll_bf {m : Mode} {D : Dec S} {M : Model} {I : Input} : ∀ (hs : List Hyp) {L L' : Loop S},
    handleAll m D M I hs L = some L' → L'.s.ms.bf = L.s.ms.bf
  | [], L, L', h => by injection h with h; subst h; rfl
  | x :: hs, L, L', h => by
    unfold handleAll at h
    split at h
    · cases h
    · rename_i h1
      rw [handleAll_bf hs h, handle_bf h1]

theorem decLoop_bf {m : Mode} {D : Dec S} {M : Model} {I : Input} (hb : D.breadthFirst = false) : ∀ (k : Nat) {L L' : Loop S},
    decLoop m D M I k L = some L' → L'.s.ms.bf = L.s.ms.bf
  | 0, L, L', h => by injection h with h; subst h; rfl
  | k + 1, L, L', h => by
    unfold decLoop at h
    split at h
    · injection h with h; subst h; rfl
    · split at h
      · cases h
      · rename_i h1
        injection h with h; subst h
        exact popUpTo_bf hb _ h1
      · rename_i h1
        split at h
        · cases h
        · rename_i h2
          rw [decLoop_bf hb k h, handleAll_bf _ h2]
          exact popUpTo_bf hb _ h1

theorem translate_bf {m : Mode} {D : Dec S} {M : Model} {I : Input} (hb : D.breadthFirst = false) {ms : MultiStack.MS S HypData}
    {L : Loop S} (h : translate m D M I ms = some L) : L.s.ms.bf = ms.bf := by
  unfold translate at h
  split at h
  · split at h
    · cases h
    · rename_i h1
      rw [decLoop_bf hb _ h]
      exact decPush_bf h1
  · injection h with h; subst h; rfl

theorem used_bf {st : St S} (h : Used (fun D : Dec S => D.breadthFirst = false) st) : st.ms.bf = false := by
  induction h with
  | new n => rfl
  | @call st D M c L md _ hb he ih =>
    unfold callOn at he
    split at he
    · cases he
    · simp only [Option.map_eq_some_iff] at he
      obtain ⟨a, h1, h2⟩ := he
      injection h2 with h2 _
      subst h2
      rw [translate_bf hb h1]; exact ih
  | next _ hb he ih =>
    have := decLoop_bf hb _ he
    dsimp only at this ⊢
    rw [this]; exact ih
  | size n _ ih => exact ih

/-! ### The flag does not matter in breadth-first search -/

theorem pushIdx_setBf (ms : MultiStack.MS S HypData) (b : Bool) (k : Nat) (h : MultiStack.Hyp S HypData) (i : Nat) :
    MultiStack.pushIdx (MultiStack.setBf ms b) k h i =
      (MultiStack.pushIdx ms k h i).map fun r => (r.1, MultiStack.setBf r.2 b) := by
  unfold MultiStack.pushIdx MultiStack.setBf
  dsimp only
  cases AMap.lk ms.stacks k with
  | none => rfl
  | some stk =>
    dsimp only
    have he : MultiStack.eraseRecombined { ms with bf := b } k i stk = MultiStack.eraseRecombined ms k i stk := rfl
    rw [he]
    cases MultiStack.eraseRecombined ms k i stk with
    | none => rfl
    | some stk1 =>
      dsimp only
      cases Stack.pushIter stk1 (h.score, (ms.next, h)) with
      | none => rfl
      | some x =>
        obtain ⟨ok, stk2⟩ := x
        dsimp only
        cases ok with
        | false => rfl
        | true =>
          simp only [if_true]
          by_cases hl : stk1.cont.length = stk2.cont.length
          · rw [if_pos hl, if_pos hl]
            cases stk1.cont.getLast? with
            | none => rfl
            | some l =>
              dsimp only
              cases AMap.lk ms.dict l.2.2.state with
              | none => rfl
              | some y => rfl
          · rw [if_neg hl, if_neg hl]; rfl

theorem pushOn_setBf (ms : MultiStack.MS S HypData) (b : Bool) (k : Nat) (h : MultiStack.Hyp S HypData) :
    MultiStack.pushOnSmtStack (MultiStack.setBf ms b) k h =
      (MultiStack.pushOnSmtStack ms k h).map fun r => (r.1, MultiStack.setBf r.2 b) := by
  unfold MultiStack.pushOnSmtStack
  have hd : (MultiStack.setBf ms b).dict = ms.dict := rfl
  rw [hd]
  cases AMap.lk ms.dict h.state with
  | none =>
    exact pushIdx_setBf { ms with dict := AMap.put ms.dict h.state (ms.dict.length, h.score) } b k h ms.dict.length
  | some x =>
    obtain ⟨i, sc⟩ := x
    dsimp only
    split
    · rfl
    · exact pushIdx_setBf { ms with dict := AMap.put ms.dict h.state (i, h.score) } b k h i

theorem push_setBf (ms : MultiStack.MS S HypData) (b : Bool) (h : MultiStack.Hyp S HypData) :
    MultiStack.push (MultiStack.setBf ms b) h = (MultiStack.push ms h).map fun r => (r.1, MultiStack.setBf r.2 b) := by
  have he : MultiStack.ensureStack (MultiStack.setBf ms b) h.cls = MultiStack.setBf (MultiStack.ensureStack ms h.cls) b := by
    unfold MultiStack.ensureStack MultiStack.setBf
    dsimp only
    cases AMap.lk ms.stacks h.cls <;> rfl
  unfold MultiStack.push
  dsimp only
  rw [he, pushOn_setBf]
  have hs : (MultiStack.setBf (MultiStack.ensureStack ms h.cls) b).stacks = (MultiStack.ensureStack ms h.cls).stacks := rfl
  rw [hs]
  cases MultiStack.pushOnSmtStack (MultiStack.ensureStack ms h.cls) h.cls h with
  | none => rfl
  | some x =>
    obtain ⟨ok, ms2⟩ := x
    cases ok with
    | true => simp only [Option.map_some]; split <;> rfl
    | false =>
      simp only [Option.map_some]
      have hs2 : (MultiStack.setBf ms2 b).stacks = ms2.stacks := rfl
      rw [hs2]
      split <;> rfl

/-- The state with another flag. -/
def withBf (b : Bool) (s : DState S) : DState S := { s with ms := MultiStack.setBf s.ms b }

theorem decPush_setBf (D : Dec S) (M : Model) (n : Nat) (s : DState S) (b : Bool) (h : Hyp) :
    decPush D M n (withBf b s) h = (decPush D M n s h).map fun r => (r.1, withBf b r.2) := by
  unfold decPush withBf
  dsimp only
  split
  · split
    · rfl
    · rw [push_setBf]
      cases MultiStack.push s.ms (stored D M n h) with
      | none => rfl
      | some x => rfl
  · rfl

theorem popUpTo_setBf {D : Dec S} (hb : D.breadthFirst = true) (M : Model) (n k : Nat) (s : DState S) (b : Bool) :
    (popUpTo D M n k (withBf b s) = popUpTo D M n k s) ∨
      (popUpTo D M n k s = some ([], s) ∧ popUpTo D M n k (withBf b s) = some ([], withBf b s)) := by
  cases k with
  | zero => exact Or.inr ⟨rfl, rfl⟩
  | succ k =>
    unfold popUpTo
    have he : MultiStack.empty (withBf b s).ms = MultiStack.empty s.ms := rfl
    rw [he]
    split
    · exact Or.inr ⟨rfl, rfl⟩
    · left
      have hp : decPop D M n (withBf b s) = decPop D M n s := by
        unfold decPop
        have : popStored D n (withBf b s).ms = popStored D n s.ms := by
          unfold popStored
          rw [hb]
          rfl
        rw [this]
        rfl
      rw [hp]

theorem decLoop_setBf {m : Mode} {D : Dec S} (hb : D.breadthFirst = true) (M : Model) (I : Input) : ∀ (k : Nat) (L : Loop S) (b : Bool),
    (decLoop m D M I k { L with s := withBf b L.s }).map (fun L => L.result) = (decLoop m D M I k L).map fun L => L.result
  | 0, _, _ => rfl
  | k + 1, L, b => by
    unfold decLoop
    split
    · rfl
    · dsimp only
      rcases popUpTo_setBf hb M I.src.length D.I L.s b with h | ⟨h1, h2⟩
      · rw [h]
      · rw [h1, h2]
        rfl

theorem translate_setBf {m : Mode} {D : Dec S} (hb : D.breadthFirst = true) (M : Model) (I : Input) (ms : MultiStack.MS S HypData)
    (b : Bool) : (translate m D M I (MultiStack.setBf ms b)).map (fun L => L.result) = (translate m D M I ms).map fun L => L.result := by
  unfold translate
  split
  · have h := decPush_setBf D M I.src.length ⟨MultiStack.clearAll ms, D.worst⟩ b (nullHyp M)
    have e : withBf b (⟨MultiStack.clearAll ms, D.worst⟩ : DState S) = ⟨MultiStack.clearAll (MultiStack.setBf ms b), D.worst⟩ := rfl
    rw [e] at h
    rw [h]
    cases decPush D M I.src.length ⟨MultiStack.clearAll ms, D.worst⟩ (nullHyp M) with
    | none => rfl
    | some r => exact decLoop_setBf hb M I _ ⟨false, nullHyp M, r.2⟩ b
  · rfl

/-! ### The result depends on the metadata only through the constraints -/

theorem transForGap_md {M : Model} {I J : Input} (hs : I.src = J.src) (h1 : I.md.srcPhrTransMap = []) (h2 : J.md.srcPhrTransMap = [])
    (l r : Nat) : transForGap M I l r = transForGap M J l r := by
  have a1 : Meta.srcPhrAffectedByConstraint I.md (l, r) = false := by simp [Meta.srcPhrAffectedByConstraint, h1]
  have a2 : Meta.srcPhrAffectedByConstraint J.md (l, r) = false := by simp [Meta.srcPhrAffectedByConstraint, h2]
  unfold transForGap
  rw [a1, a2, hs]
  simp only [Bool.false_eq_true, if_false]

theorem expandMode_md {m : Mode} (hm : m ≠ .trans) {M : Model} {I : Input} {md : MD}
    (h : m = .ref ∨ I.md.srcPhrTransMap = [] ∧ md.srcPhrTransMap = []) (x : Hyp) :
    expandMode m M { I with md := md } x = expandMode m M I x := by
  cases m with
  | trans => exact absurd rfl hm
  | ref => rfl
  | ver =>
    obtain ⟨h1, h2⟩ : I.md.srcPhrTransMap = [] ∧ md.srcPhrTransMap = [] := by
      rcases h with h | h
      · cases h
      · exact h
    have ht : transForGap M { I with md := md } = transForGap M I := by
      funext l r; exact transForGap_md (I := { I with md := md }) (J := I) rfl h2 h1 l r
    have hv : hypDataVer M { I with md := md } = hypDataVer M I := by
      funext d l r
      unfold hypDataVer hypDataForGap
      rw [ht]
      rfl
    simp only [expandMode, hv]
    rfl
  | pref =>
    obtain ⟨h1, h2⟩ : I.md.srcPhrTransMap = [] ∧ md.srcPhrTransMap = [] := by
      rcases h with h | h
      · cases h
      · exact h
    have ht : transForGap M { I with md := md } = transForGap M I := by
      funext l r; exact transForGap_md (I := { I with md := md }) (J := I) rfl h2 h1 l r
    have hv : hypDataPref M { I with md := md } = hypDataPref M I := by
      funext d l r
      unfold hypDataPref transPref
      rw [ht]
      rfl
    simp only [expandMode, hv]
    rfl

theorem handleAll_md {m : Mode} (hm : m ≠ .trans) {D : Dec S} {M : Model} {I : Input} {md : MD}
    (h : m = .ref ∨ I.md.srcPhrTransMap = [] ∧ md.srcPhrTransMap = []) : ∀ (hs : List Hyp) (L : Loop S),
    handleAll m D M { I with md := md } hs L = handleAll m D M I hs L
  | [], _ => rfl
  | x :: hs, L => by
    unfold handleAll handle
    rw [expandMode_md hm h]
    have : ∀ L, handleAll m D M { I with md := md } hs L = handleAll m D M I hs L := handleAll_md hm h hs
    simp only [this]

theorem decLoop_md {m : Mode} (hm : m ≠ .trans) {D : Dec S} {M : Model} {I : Input} {md : MD}
    (h : m = .ref ∨ I.md.srcPhrTransMap = [] ∧ md.srcPhrTransMap = []) : ∀ (k : Nat) (L : Loop S),
    decLoop m D M { I with md := md } k L = decLoop m D M I k L
  | 0, _ => rfl
  | k + 1, L => by
    unfold decLoop
    have h1 : ∀ hs L, handleAll m D M { I with md := md } hs L = handleAll m D M I hs L := handleAll_md hm h
    have h2 : ∀ L, decLoop m D M { I with md := md } k L = decLoop m D M I k L := decLoop_md hm h k
    simp only [h1, h2]

theorem translate_md {m : Mode} (hm : m ≠ .trans) {D : Dec S} {M : Model} {I : Input} {md : MD}
    (h : m = .ref ∨ I.md.srcPhrTransMap = [] ∧ md.srcPhrTransMap = []) (ms : MultiStack.MS S HypData) :
    translate m D M { I with md := md } ms = translate m D M I ms := by
  unfold translate decode
  simp only [decLoop_md hm h]
  rfl

/-! ### C89 -/

omit [DecidableEq S] in
theorem clear_eq {ms ms' : MultiStack.MS S HypData} (h1 : ms.max = ms'.max) (h2 : ms.bf = ms'.bf) :
    MultiStack.clearAll ms = MultiStack.clearAll ms' := by
  unfold MultiStack.clearAll MultiStack.clear
  rw [h1, h2]

theorem translate_state {m : Mode} {D : Dec S} (M : Model) (I : Input) {ms ms' : MultiStack.MS S HypData} (h1 : ms.max = ms'.max)
    (h2 : D.breadthFirst = false → ms.bf = ms'.bf) :
    (translate m D M I ms).map (fun L => L.result) = (translate m D M I ms').map fun L => L.result := by
  cases hb : D.breadthFirst with
  | true =>
    rw [← translate_setBf hb M I ms false, ← translate_setBf hb M I ms' false]
    have : MultiStack.clearAll (MultiStack.setBf ms false) = MultiStack.clearAll (MultiStack.setBf ms' false) := clear_eq h1 rfl
    unfold translate
    rw [this]
  | false =>
    unfold translate
    rw [clear_eq h1 (h2 hb)]

/-- A call needs no constraints left by earlier calls: translation of a sentence (which sets them) and translation with a reference
(which does not use them). -/
def Call.ownConstraints : Call → Bool
  | .translate _ => true
  | .withRef _ _ => true
  | .verify _ _ => false
  | .withPrefix _ _ => false

theorem result_eq {D : Dec S} {M : Model} {st st' : St S} {c : Call} (h1 : st.ms.max = st'.ms.max)
    (h2 : D.breadthFirst = false → st.ms.bf = st'.ms.bf)
    (h3 : c.ownConstraints = true ∨ st.md.srcPhrTransMap = [] ∧ st'.md.srcPhrTransMap = []) :
    resultOf D M st c = resultOf D M st' c := by
  unfold resultOf callOn
  cases c with
  | translate s =>
    simp only [Call.input]
    cases Meta.obtainTransConstraints s with
    | none => rfl
    | some md =>
      have := translate_state (m := .trans) (D := D) M { src := Meta.getSrcSentVec md, md := md } h1 h2
      simpa [Call.mode, Option.map_map, Function.comp_def] using this
  | withRef s r =>
    have := translate_state (m := .ref) (D := D) M
      { src := StrProc.stringToStringVector s, md := st.md, ref := StrProc.stringToStringVector r } h1 h2
    have e := translate_md (m := .ref) (by simp) (D := D) (M := M) (md := st.md)
      (I := { src := StrProc.stringToStringVector s, md := st'.md, ref := StrProc.stringToStringVector r }) (Or.inl rfl) st'.ms
    rw [e] at this
    simpa [Call.mode, Call.input, Option.map_map, Function.comp_def] using this
  | verify s r =>
    obtain ⟨m1, m2⟩ : st.md.srcPhrTransMap = [] ∧ st'.md.srcPhrTransMap = [] := by
      rcases h3 with h | h
      · cases h
      · exact h
    have := translate_state (m := .ver) (D := D) M
      { src := StrProc.stringToStringVector s, md := st.md, ref := StrProc.stringToStringVector r } h1 h2
    have e := translate_md (m := .ver) (by simp) (D := D) (M := M) (md := st.md)
      (I := { src := StrProc.stringToStringVector s, md := st'.md, ref := StrProc.stringToStringVector r }) (Or.inr ⟨m2, m1⟩) st'.ms
    rw [e] at this
    simpa [Call.mode, Call.input, Option.map_map, Function.comp_def] using this
  | withPrefix s p =>
    obtain ⟨m1, m2⟩ : st.md.srcPhrTransMap = [] ∧ st'.md.srcPhrTransMap = [] := by
      rcases h3 with h | h
      · cases h
      · exact h
    have := translate_state (m := .pref) (D := D) M
      { src := StrProc.stringToStringVector s, md := st.md, pref := StrProc.stringToStringVector p,
        prefBlank := StrProc.lastCharIsBlank p } h1 h2
    have e := translate_md (m := .pref) (by simp) (D := D) (M := M) (md := st.md)
      (I := { src := StrProc.stringToStringVector s, md := st'.md, pref := StrProc.stringToStringVector p,
              prefBlank := StrProc.lastCharIsBlank p }) (Or.inr ⟨m2, m1⟩) st'.ms
    rw [e] at this
    simpa [Call.mode, Call.input, Option.map_map, Function.comp_def] using this

/-- A decoder that has only been used in best-first mode (the mode may have changed now): `translate` and `translateWithRef` give the same hypothesis as a new
decoder with the same stack size; `verifyCoverageForRef` and `translateWithPrefix` too, if the last sentence given to `translate`
had no constraints. -/
theorem C89_best_first_partial {D : Dec S} {M : Model} {st : St S} {c : Call}
    (hu : Used (fun D' : Dec S => D'.breadthFirst = false) st)
    (hc : c.ownConstraints = true ∨ st.md.srcPhrTransMap = []) : resultOf D M st c = resultOf D M (fresh st.ms.max) c :=
  result_eq rfl (fun _ => used_bf hu) (hc.imp id fun h => ⟨h, rfl⟩)

/-- Breadth-first search: the same, whatever the decoder has been used for. -/
theorem C89_breadth_first_partial {D : Dec S} {M : Model} {st : St S} {c : Call} (hb : D.breadthFirst = true)
    (hc : c.ownConstraints = true ∨ st.md.srcPhrTransMap = []) : resultOf D M st c = resultOf D M (fresh st.ms.max) c :=
  result_eq rfl (fun h => by rw [hb] at h; cases h) (hc.imp id fun h => ⟨h, rfl⟩)

/-- The full claim: no call depends on earlier ones. -/
def C89_full : Prop := ∀ (D : Dec HypData) (M : Model) (st : St HypData) (c : Call), Used (fun _ : Dec HypData => True) st →
  resultOf D M st c = resultOf D M (fresh st.ms.max) c

/-- The annotated sentence whose constraint stays in the model. -/
def exHSent : Str := "<phr_pair_annot> <src_segm> a b </src_segm> <trg_segm> k </trg_segm> </phr_pair_annot>".toList

/-- The state after translating a sentence. -/
def exAfter (D : Dec HypData) (M : Model) (s : Str) : St HypData :=
  match callOn D M (fresh 100) (.translate s) with
  | some (L, md) => ⟨md, L.s.ms⟩
  | none => fresh 100

theorem exAfter_used {P : Dec HypData → Prop} {D : Dec HypData} (hD : P D) (M : Model) (s : Str) : Used P (exAfter D M s) := by
  unfold exAfter
  split
  · rename_i h
    exact .call (.new 100) hD h
  · exact .new 100

/-- After an annotated sentence, `translateWithPrefix` no longer finds the translation `x y x` of `a b a`: it returns the null
hypothesis. -/
theorem C89_counterexample : ¬ C89_full := by
  intro H
  have h1 := H (exDec 1 100) { exO with A := 1 } _ (.withPrefix "a b a".toList "x".toList)
    (exAfter_used (P := fun _ => True) (D := exDec 1 100) trivial exO exHSent)
  revert h1
  have : resultOf (exDec 1 100) { exO with A := 1 } (exAfter (exDec 1 100) exO exHSent) (.withPrefix "a b a".toList "x".toList) ≠
      resultOf (exDec 1 100) { exO with A := 1 } (fresh (exAfter (exDec 1 100) exO exHSent).ms.max)
        (.withPrefix "a b a".toList "x".toList) := by decide +kernel
  exact this

/-- A decoder used in breadth-first mode before gives another result of `translate` in best-first mode (the translation with score
-2 instead of the one with score -1). -/
theorem C89_counterexample_mode :
    let st := exAfter { exDec 1 100 with breadthFirst := true } exO "a b".toList
    Used (fun _ : Dec HypData => True) st ∧
      (resultOf (exDec 1 100) exO st (.translate "a b".toList)).map (fun h => h.score) = some (-2) ∧
      (resultOf (exDec 1 100) exO (fresh st.ms.max) (.translate "a b".toList)).map (fun h => h.score) = some (-1) := by
  refine ⟨exAfter_used (P := fun _ => True) (D := { exDec 1 100 with breadthFirst := true }) trivial exO _, ?_, ?_⟩
  · decide +kernel
  · decide +kernel

/-- A decoder used in best-first mode, with a translation of `a b` found. -/
example : Used (fun D : Dec HypData => D.breadthFirst = false) (exAfter (exDec 1 100) exO "a b".toList) ∧
    (resultOf (exDec 1 100) exO (exAfter (exDec 1 100) exO "a b".toList) (.translate "a b".toList)).map (fun h => h.score) = some (-1) :=
  ⟨exAfter_used (P := fun D => D.breadthFirst = false) (D := exDec 1 100) rfl exO _, by decide +kernel⟩

end Thot.Search

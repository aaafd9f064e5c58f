import Verif.CondTab.PropsNbest
/-!
# C305–C307: the encoder and the word-level counts
-/
namespace Thot.CondTab

open Thot Thot.AMap

variable {H K : Type} [DecidableEq H] [DecidableEq K]

/-! ### C305: codes -/

/-- An operation on one side of the encoder. -/
inductive EOp (H : Type) where
  /-- a word is given a code (`addHSrcCode` of the model) -/
  | add (h : H)
  | clear
  /-- a vocabulary file with these entries is loaded -/
  | load (f : List (H × Nat))

/-- One operation. -/
def estep (e : Enc H) : EOp H → Enc H
  | .add h => (e.addCode h).1
  | .clear => Enc.new
  | .load f => match e.loadFile (some f) with | some r => r.2 | none => e

/-- A history on a new encoder. -/
def erun (ops : List (EOp H)) : Enc H := ops.foldl estep Enc.new

/-- The words that have been given a code since the last `clear`. -/
def known : List (EOp H) → List H
  | [] => []
  | o :: r =>
    if r.any (fun o => match o with | .clear => true | _ => false) then known r
    else match o with
      | .add h => h :: known r
      | .clear => known r
      | .load f => f.map Prod.fst ++ known r

/-- The two directions agree: `f` is an injective coding of the words `ws`, with inverse `g`; a word without a code
gets a number that is not a code. -/
structure Coding (ws : List H) (f : H → Bool × Nat) (g : Nat → Option H) : Prop where
  known : ∀ h, (f h).1 = true ↔ h ∈ ws
  inverse : ∀ h c, g c = some h ↔ f h = (true, c)
  unused : ∀ h, (f h).1 = false → g (f h).2 = none

/-- C305 in full: also when vocabularies (with distinct words and codes, as printed) are loaded in a new or cleared
encoder. -/
def C305_full : Prop :=
  ∀ (pre : List (H × Nat)) (ws : List H), pre ≠ [] → Distinct pre → (pre.map Prod.snd).Nodup → (∀ p ∈ pre, 1 ≤ p.2) →
    Coding (pre.map Prod.fst ++ ws) (erun (.load pre :: ws.map .add)).code (erun (.load pre :: ws.map .add)).decode

/-- `load` does not advance the counter: the first word after loading `a 1` gets the code 1 too. -/
theorem C305_counterexample : ¬ C305_full (H := String) := by
  intro h
  have := (h [("a", 1)] ["b"] (by simp) (by simp [Distinct]) (by simp) (by simp)).inverse "b" 1
  have h1 : (erun [.load [("a", 1)], .add "b"]).decode 1 = some "a" := by decide +kernel
  have h2 : (erun [.load [("a", 1)], .add "b"]).code "b" = (true, 1) := by decide +kernel
  simp only [List.map_cons, List.map_nil] at this
  rw [h1, h2] at this
  revert this
  decide

/-- No vocabulary is loaded. -/
def NoLoad (ops : List (EOp H)) : Prop := ∀ f, EOp.load f ∉ ops

theorem enc_gen (ops : List (EOp H)) (hn : NoLoad ops) : ∀ e : Enc H, EncInv e →
    EncInv (ops.foldl estep e) ∧ ∀ h, (lk (ops.foldl estep e).map h).isSome ↔
      h ∈ known ops ∨ (ops.any (fun o => match o with | .clear => true | _ => false) = false ∧ (lk e.map h).isSome) := by
  induction ops with
  | nil => intro e he; exact ⟨he, fun h => by simp [known]⟩
  | cons o r ih =>
    intro e he
    have hr : NoLoad r := fun f hf => hn f (List.mem_cons_of_mem _ hf)
    cases o with
    | load f => exact absurd List.mem_cons_self (hn f)
    | clear =>
      obtain ⟨h1, h2⟩ := ih hr Enc.new encInv_new
      refine ⟨h1, fun h => ?_⟩
      simp only [List.foldl_cons, estep]
      rw [h2 h]
      simp [known, Enc.new, lk]
    | add w =>
      obtain ⟨h1, h2⟩ := ih hr (e.addCode w).1 (encInv_addCode he w)
      refine ⟨h1, fun h => ?_⟩
      simp only [List.foldl_cons, estep]
      rw [h2 h, lk_addCode]
      cases hc : r.any (fun o => match o with | .clear => true | _ => false)
      · by_cases hw : h = w
        · subst hw; simp [known, hc]
        · simp [known, hc, hw]
      · simp [known, hc]

/-- C305: after any history of codings and clears, the words known are exactly those given a code since the last
`clear`, codes are injective, `Src_to_HighSrc` is the inverse of `HighSrc_to_Src`, an unknown word gets a number that
is nobody's code, and a word keeps its code while others are added.  Missing: `C305_full`, refuted above (`load` does
not advance the counter). -/
theorem C305_coding_partial (ops : List (EOp H)) (hn : NoLoad ops) :
    Coding (known ops) (erun ops).code (erun ops).decode ∧
    ∀ h w c, (erun ops).code h = (true, c) → (erun (ops ++ [.add w])).code h = (true, c) := by
  obtain ⟨hi, hk⟩ := enc_gen ops hn Enc.new encInv_new
  have hcode : ∀ (e : Enc H) h c, e.code h = (true, c) ↔ lk e.map h = some c := by
    intro e h c
    unfold Enc.code
    cases lk e.map h <;> simp
  refine ⟨⟨?_, ?_, ?_⟩, ?_⟩
  · intro h
    have := hk h
    simp only [Enc.new, lk, Option.isSome_none, Bool.false_eq_true, and_false, or_false] at this
    rw [← this]
    unfold Enc.code erun
    cases hh : lk (ops.foldl estep Enc.new).map h <;> simp [Enc.new] at hh ⊢ <;> simp [hh]
  · intro h c
    rw [hcode]
    exact findCode_iff hi.codes hi.keys
  · intro h hf
    unfold Enc.code at hf ⊢
    cases hh : lk (erun ops).map h with
    | some c => rw [hh] at hf; cases hf
    | none =>
      simp only []
      cases hd : (erun ops).decode ((erun ops).last + 1) with
      | none => rfl
      | some h' =>
        have h1 := (lk_some_iff hi.keys).1 ((findCode_iff hi.codes hi.keys).1 hd)
        have h2 := (hi.bound _ h1).2
        have h3 : (erun ops).last + 1 ≤ (erun ops).last := h2
        omega
  · intro h w c hc
    rw [hcode] at hc ⊢
    unfold erun at hc ⊢
    simp only [List.foldl_append, List.foldl_cons, List.foldl_nil, estep]
    rw [lk_addCode]
    split
    · rename_i hw
      subst hw
      rw [addCode_of_some hc]
    · exact hc

/-- Non-vacuity. -/
example : NoLoad [EOp.add "a", .add "b", .add "a"] ∧ (erun [EOp.add "a", .add "b", .add "a"]).code "b" = (true, 2) ∧
    (erun [EOp.add "a", .add "b", .add "a"]).decode 1 = some "a" ∧
    (erun [EOp.add "a", .add "b", .add "a"]).code "c" = (false, 3) := by
  refine ⟨by simp [NoLoad], ?_⟩
  decide +kernel

/-! ### C306: printing and loading a vocabulary -/

/-- C306 in full: what `print` writes, `load` reads back in a new encoder, for both vocabularies. -/
def C306_full : Prop :=
  ∀ (e : Encoder String String) (f : Option (List (String × Nat)) × Option (List (String × Nat))),
    EncInv e.src → EncInv e.trg → e.src.map ≠ [] → e.trg.map ≠ [] →
    ∃ b e', Encoder.load (⟨Enc.new, Enc.new⟩ : Encoder String String) (e.print true true f).2.1 (e.print true true f).2.2 =
      some (b, e') ∧ (∀ h, e'.src.code h = e.src.code h ∨ (e.src.code h).1 = false) ∧
      ∀ k, e'.trg.code k = e.trg.code k ∨ (e.trg.code k).1 = false

/-- The target vocabulary is not written, nor read. -/
theorem C306_counterexample : ¬ C306_full := by
  intro h
  obtain ⟨b, e', hl, _, ht⟩ := h ⟨((Enc.new : Enc String).addCode "a").1, ((Enc.new : Enc String).addCode "b").1⟩
    (none, none) (encInv_addCode encInv_new _) (encInv_addCode encInv_new _) (by decide) (by decide)
  have h1 : e'.trg = Enc.new := by
    cases hl
    rfl
  have h2 := ht "b"
  rw [h1] at h2
  revert h2
  decide

theorem foldl_put_lk {l : List (H × Nat)} (hd : Distinct l) : ∀ (m : List (H × Nat)) (h : H),
    lk (l.foldl (fun m x => put m x.1 x.2) m) h = (match lk l h with | some c => some c | none => lk m h) := by
  induction l with
  | nil => intro m h; rfl
  | cons e r ih =>
    obtain ⟨h1, h2⟩ := List.nodup_cons.1 hd
    intro m h
    simp only [List.foldl_cons]
    rw [ih h2, lk_put]
    by_cases he : e.1 = h
    · have : lk r h = none := lk_none_iff.2 (by rw [← he]; exact h1)
      simp [this, lk, he]
    · have he' : ¬ h = e.1 := fun hh => he hh.symm
      simp only [lk, he, he', if_false]
      try (cases lk r h <;> rfl)

theorem getLastD_mem {A : Type} (p : A) (l : List A) : (p :: l).getLastD p ∈ p :: l := by
  rw [List.getLastD_cons]
  induction l generalizing p with
  | nil => simp
  | cons a r ih => rw [List.getLastD_cons]; exact List.mem_cons_of_mem _ (ih a)

/-- C306: when the source file can be written, `print` writes the source vocabulary and nothing else, and `load` of
that file in a new encoder gives every source word its code, leaves the target vocabulary as it was, and both return
`false`.  Missing: `C306_full`, refuted above. -/
theorem C306_source_partial (e : Encoder H K) (f : Option (List (H × Nat)) × Option (List (K × Nat))) (okT : Bool)
    (hs : EncInv e.src) (hne : e.src.map ≠ []) (e0 : Enc K) (g : Option (List (K × Nat))) :
    e.print true okT f = (false, (some e.src.map, f.2)) ∧
    ∃ s, (⟨Enc.new, e0⟩ : Encoder H K).load (some e.src.map) g = some (false, ⟨s, e0⟩) ∧
      ∀ h, lk s.map h = lk e.src.map h := by
  refine ⟨rfl, ?_⟩
  cases hm : e.src.map with
  | nil => exact absurd hm hne
  | cons p ps =>
    refine ⟨_, rfl, ?_⟩
    intro h
    have hd : Distinct (p :: ps) := by rw [← hm]; exact hs.keys
    have hf := foldl_put_lk hd ([] : List (H × Nat))
    have hf' : ∀ h, lk ((p :: ps).foldl (fun m x => put m x.1 x.2) []) h = lk (p :: ps) h := by
      intro h; rw [hf h]; cases lk (p :: ps) h <;> rfl
    dsimp only [Enc.new]
    rw [lk_put]
    split
    · rename_i he
      rw [he]
      exact ((lk_some_iff hd).2 (getLastD_mem p ps)).symm
    · exact hf' h

/-- Non-vacuity. -/
example : (⟨Enc.new, Enc.new⟩ : Encoder String String).load (some [("a", 1), ("b", 2)]) (some [("c", 1)]) =
    some (false, ⟨⟨[("a", 1), ("b", 2)], 0⟩, Enc.new⟩) := by rfl

/-! ### C307: word-level counts -/

/-- The increments of some pairs of words, on a new model. -/
def countedHigh (cs : List (H × K × Nat)) : Model H K :=
  cs.foldl (fun m e => incrCountsOfEntryHigh m e.1 e.2.1 e.2.2) Model.new

/-- The model stores the counts `f`, `g` of the words and of the pairs. -/
structure MInv (m : Model H K) (f : H → Option Nat) (g : H → K → Option Nat) : Prop where
  src : EncInv m.enc.src
  trg : EncInv m.enc.trg
  srcB : ∀ s, (getSrcInfo m.tab s).isSome → s ≤ m.enc.src.last
  pairB : ∀ s t, (getSrcTrgInfo m.tab s t).isSome → s ≤ m.enc.src.last ∧ t ≤ m.enc.trg.last
  f_spec : ∀ h, f h = (lk m.enc.src.map h).bind (getSrcInfo m.tab)
  g_spec : ∀ h k, g h k = (lk m.enc.src.map h).bind (fun s => (lk m.enc.trg.map k).bind (getSrcTrgInfo m.tab s))

theorem addCode_cases {e : Enc H} (hi : EncInv e) (h : H) :
    (lk e.map h = some (e.addCode h).2 ∧ (e.addCode h).2 ≤ e.last) ∨ (lk e.map h = none ∧ (e.addCode h).2 = e.last + 1) := by
  cases hl : lk e.map h with
  | some c =>
    rw [addCode_of_some hl]
    exact Or.inl ⟨rfl, (hi.bound _ ((lk_some_iff hi.keys).1 hl)).2⟩
  | none => rw [addCode_of_none hl]; exact Or.inr ⟨rfl, rfl⟩

theorem code_le_last {e : Enc H} (hi : EncInv e) (h : H) : (e.addCode h).2 ≤ (e.addCode h).1.last := by
  have := encInv_addCode hi h
  have hl := lk_addCode e h h
  rw [if_pos rfl] at hl
  exact (this.bound _ ((lk_some_iff this.keys).1 hl)).2

theorem mInv_incr {m : Model H K} {f : H → Option Nat} {g : H → K → Option Nat} (hm : MInv m f g) (h : H) (k : K)
    (c : Nat) : MInv (incrCountsOfEntryHigh m h k c) (fun h' => if h' = h then some ((f h).getD 0 + c) else f h')
      (fun h' k' => if h' = h ∧ k' = k then some ((g h k).getD 0 + c) else g h' k') := by
  have hsi := encInv_addCode hm.src h
  have hti := encInv_addCode hm.trg k
  have hS := addCode_cases hm.src h
  have hT := addCode_cases hm.trg k
  have hsl := last_addCode m.enc.src h
  have htl := last_addCode m.enc.trg k
  have hsc := code_le_last hm.src h
  have htc := code_le_last hm.trg k
  have lS : ∀ h', lk (m.enc.src.addCode h).1.map h' = if h' = h then some (m.enc.src.addCode h).2 else lk m.enc.src.map h' :=
    lk_addCode _ h
  have lT : ∀ k', lk (m.enc.trg.addCode k).1.map k' = if k' = k then some (m.enc.trg.addCode k).2 else lk m.enc.trg.map k' :=
    lk_addCode _ k
  have e0 : incrCountsOfEntryHigh m h k c = ⟨incrCountsOfEntry m.tab (m.enc.src.addCode h).2 (m.enc.trg.addCode k).2 c,
    ⟨(m.enc.src.addCode h).1, (m.enc.trg.addCode k).1⟩⟩ := rfl
  generalize (m.enc.src.addCode h).2 = s at *
  generalize (m.enc.trg.addCode k).2 = t at *
  generalize (m.enc.src.addCode h).1 = es at *
  generalize (m.enc.trg.addCode k).1 = et at *
  have fcode : (getSrcInfo m.tab s).getD 0 = (f h).getD 0 := by
    rw [hm.f_spec]
    rcases hS with ⟨hS, _⟩ | ⟨hS, hs⟩
    · rw [hS]; rfl
    · rw [hS]
      have : getSrcInfo m.tab s = none := by
        cases hg : getSrcInfo m.tab s with
        | none => rfl
        | some x => have := hm.srcB s (by simp [hg]); omega
      rw [this]; rfl
  have gcode : (getSrcTrgInfo m.tab s t).getD 0 = (g h k).getD 0 := by
    rw [hm.g_spec]
    have key : ((s = m.enc.src.last + 1 ∨ t = m.enc.trg.last + 1)) → getSrcTrgInfo m.tab s t = none := by
      intro ho
      cases hg : getSrcTrgInfo m.tab s t with
      | none => rfl
      | some x => have := hm.pairB s t (by simp [hg]); omega
    rcases hS with ⟨hS, _⟩ | ⟨hS, hs⟩
    · rcases hT with ⟨hT, _⟩ | ⟨hT, ht⟩
      · rw [hS, hT]; rfl
      · rw [hS, hT, key (Or.inr ht)]; rfl
    · rw [hS, key (Or.inl hs)]; rfl
  rw [e0]
  refine ⟨hsi, hti, ?_, ?_, ?_, ?_⟩
  · intro s' hs'
    dsimp only at hs' ⊢
    rw [getSrcInfo_incr] at hs'
    by_cases he : s' = s
    · rw [he]; exact hsc
    · rw [if_neg he] at hs'
      have := hm.srcB s' hs'; omega
  · intro s' t' hs'
    dsimp only at hs' ⊢
    rw [getSrcTrgInfo_incr] at hs'
    by_cases he : s' = s ∧ t' = t
    · rw [he.1, he.2]; exact ⟨hsc, htc⟩
    · rw [if_neg he] at hs'
      have := hm.pairB s' t' hs'; omega
  · intro h'
    dsimp only
    rw [lS]
    by_cases he : h' = h
    · simp only [he, if_true, Option.bind_some]
      rw [getSrcInfo_incr, if_pos rfl, fcode]
    · simp only [he, if_false]
      rw [hm.f_spec h']
      cases hl : lk m.enc.src.map h' with
      | none => rfl
      | some s' =>
        simp only [Option.bind_some]
        have hne : s' ≠ s := by
          intro hss
          have l1 := lS h'
          have l2 := lS h
          rw [if_neg he, hl, hss] at l1
          rw [if_pos rfl] at l2
          exact he (lk_inj hsi.codes hsi.keys l1 l2)
        rw [getSrcInfo_incr, if_neg hne]
  · intro h' k'
    dsimp only
    rw [lS, lT]
    by_cases he : h' = h ∧ k' = k
    · simp only [he.1, he.2, and_self, if_true, Option.bind_some]
      rw [getSrcTrgInfo_incr, if_pos ⟨rfl, rfl⟩, gcode]
    · simp only [he, if_false]
      rw [hm.g_spec h' k']
      have injS : ∀ h1 c, lk es.map h1 = some c → lk es.map h = some c → h1 = h := fun h1 c a b => lk_inj hsi.codes hsi.keys a b
      have injT : ∀ k1 c, lk et.map k1 = some c → lk et.map k = some c → k1 = k := fun k1 c a b => lk_inj hti.codes hti.keys a b
      have lh := lS h
      rw [if_pos rfl] at lh
      have lkk := lT k
      rw [if_pos rfl] at lkk
      by_cases hh : h' = h
      · have hk : ¬ k' = k := fun hk => he ⟨hh, hk⟩
        simp only [hh, hk, if_true, if_false, Option.bind_some]
        cases hl : lk m.enc.trg.map k' with
        | none => cases lk m.enc.src.map h <;> simp
        | some t' =>
          simp only [Option.bind_some]
          have hne : t' ≠ t := by
            intro htt
            have l1 := lT k'
            rw [if_neg hk, hl, htt] at l1
            exact hk (injT k' t l1 lkk)
          rw [getSrcTrgInfo_incr, if_neg (by simp [hne])]
          rcases hS with ⟨hS, _⟩ | ⟨hS, hs⟩
          · rw [hS]; rfl
          · rw [hS]
            simp only [Option.bind_none]
            cases hg : getSrcTrgInfo m.tab s t' with
            | none => rfl
            | some x => have := hm.pairB s t' (by simp [hg]); omega
      · simp only [hh, if_false]
        cases hls : lk m.enc.src.map h' with
        | none => rfl
        | some s' =>
          have hne : s' ≠ s := by
            intro hss
            have l1 := lS h'
            rw [if_neg hh, hls, hss] at l1
            exact hh (injS h' s l1 lh)
          simp only [Option.bind_some]
          by_cases hk : k' = k
          · simp only [hk, if_true, Option.bind_some]
            rw [getSrcTrgInfo_incr, if_neg (by simp [hne])]
            rcases hT with ⟨hT, _⟩ | ⟨hT, ht⟩
            · rw [hT]; rfl
            · rw [hT]
              simp only [Option.bind_none]
              cases hg : getSrcTrgInfo m.tab s' t with
              | none => rfl
              | some x => have := hm.pairB s' t (by simp [hg]); omega
          · simp only [hk, if_false]
            cases lk m.enc.trg.map k' with
            | none => rfl
            | some t' =>
              simp only [Option.bind_some]
              rw [getSrcTrgInfo_incr, if_neg (by simp [hne])]

theorem mInv_new : MInv (Model.new : Model H K) (fun _ => none) (fun _ _ => none) :=
  ⟨encInv_new, encInv_new, fun s h => (by cases h), fun s t h => (by cases h), fun _ => rfl, fun _ _ => rfl⟩

theorem getHSrc_of {m : Model H K} {f : H → Option Nat} {g : H → K → Option Nat} (hm : MInv m f g) (h : H) (k : K) :
    getHSrcInfo m h = f h ∧ getHSrcHTrgInfo m h k = g h k := by
  rw [hm.f_spec h, hm.g_spec h k]
  unfold getHSrcInfo getHSrcHTrgInfo Enc.code
  cases lk m.enc.src.map h with
  | none => exact ⟨rfl, rfl⟩
  | some s => cases lk m.enc.trg.map k <;> exact ⟨rfl, rfl⟩

/-- C307: after the counts of some pairs of words are incremented on a new model, the count found for a word (a pair
of words) is the total of its increments, and a word (a pair) without increments is not found. -/
theorem C307_words (cs : List (H × K × Nat)) :
    (∀ h, ((∃ k c, (h, k, c) ∈ cs) →
        getHSrcInfo (countedHigh cs) h = some (total (fun h' _ => decide (h' = h)) cs)) ∧
      ((¬ ∃ k c, (h, k, c) ∈ cs) → getHSrcInfo (countedHigh cs) h = none)) ∧
    ∀ h k, ((∃ c, (h, k, c) ∈ cs) →
        getHSrcHTrgInfo (countedHigh cs) h k = some (total (fun h' k' => decide (h' = h ∧ k' = k)) cs)) ∧
      ((¬ ∃ c, (h, k, c) ∈ cs) → getHSrcHTrgInfo (countedHigh cs) h k = none) := by
  -- the counts are those of a table indexed by the words themselves
  have key : ∀ (m : Model H K) (tab : Tab H K), MInv m (getSrcInfo tab) (getSrcTrgInfo tab) →
      MInv (cs.foldl (fun m e => incrCountsOfEntryHigh m e.1 e.2.1 e.2.2) m)
        (getSrcInfo ((cs.map (fun e => (Op.incr e.1 e.2.1 e.2.2 : Op H K))).foldl step tab))
        (getSrcTrgInfo ((cs.map (fun e => (Op.incr e.1 e.2.1 e.2.2 : Op H K))).foldl step tab)) := by
    induction cs with
    | nil => intro m tab hm; exact hm
    | cons e r ih =>
      intro m tab hm
      simp only [List.foldl_cons, List.map_cons]
      refine ih _ _ ?_
      have h1 := step_src tab (.incr e.1 e.2.1 e.2.2)
      have h2 := step_pair tab (.incr e.1 e.2.1 e.2.2)
      rw [h1, h2]
      exact mInv_incr hm e.1 e.2.1 e.2.2
  have hm : MInv (countedHigh cs) (getSrcInfo (counted cs)) (getSrcTrgInfo (counted cs)) :=
    key Model.new Tab.new mInv_new
  obtain ⟨h1, _, h3, h4, h5⟩ := counted_spec cs
  have pick : ∀ (o : Option Nat) (n : Nat) (P : Prop), o.getD 0 = n → (o.isSome ↔ P) →
      (P → o = some n) ∧ (¬ P → o = none) := by
    intro o n P ho hp
    cases o with
    | none => exact ⟨fun hP => absurd (hp.2 hP) (by simp), fun _ => rfl⟩
    | some x => exact ⟨fun _ => by simp at ho; rw [ho], fun hP => absurd (hp.1 rfl) hP⟩
  have hsrc : ∀ h, getHSrcInfo (countedHigh cs) h = getSrcInfo (counted cs) h := by
    intro h
    rw [hm.f_spec h]
    unfold getHSrcInfo Enc.code
    cases lk (countedHigh cs).enc.src.map h <;> rfl
  constructor
  · intro h
    rw [hsrc h]
    exact pick _ _ _ (h1 h) (h5 h)
  · intro h k
    rw [(getHSrc_of hm h k).2]
    exact pick _ _ _ (h3 h k) (h4 h k)

/-- Non-vacuity. -/
example : getHSrcHTrgInfo (countedHigh [("a", "x", 2), ("b", "x", 1), ("a", "x", 3)]) "a" "x" = some 5 ∧
    getHSrcInfo (countedHigh [("a", "x", 2), ("b", "x", 1), ("a", "x", 3)]) "b" = some 1 ∧
    getHSrcHTrgInfo (countedHigh [("a", "x", 2), ("b", "x", 1), ("a", "x", 3)]) "a" "y" = none := by decide +kernel

end Thot.CondTab

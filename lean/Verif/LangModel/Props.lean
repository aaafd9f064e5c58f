import Verif.LangModel.Train
/-! C97 (vocabulary) and C98 (counts) of the n-gram language model. -/
namespace Thot.LangModel

open Thot

/-! ### Histories -/

/-- Calls of the public functions. -/
inductive Op where
  | addSymbol (w : Word)
  | incr (w : Word) (h : List Word) (c : Rat)
  | train (s : List Word) (c lb : Rat)
  | setOrder (n : Nat)
  | setWeights (ws : List Rat) (nbuck : Nat) (bsize : Rat)
  | clear

/-- `addSymbol`, `incrCountsOfNgramStr`, `trainSentence`, `setNgramOrder` (_incrNgramLM.h:183-187), the weights read by
`loadWeights` (_incrJelMerNgramLM.h:344-392) and `clear`. -/
def step (m : LM) : Op → LM
  | .addSymbol w => m.addSymbol w
  | .incr w h c => m.incrStr w h c
  | .train s c lb => (m.train s c lb).2
  | .setOrder n => { m with order := n }
  | .setWeights ws nb bs => { m with weights := ws, nbuck := nb, bsize := bs }
  | .clear => m.clear

/-- The model after a history (the last call first). -/
def run : List Op → LM
  | [] => LM.new
  | op :: r => step (run r) op

/-! ### Specification -/

/-- The order in force after a history. -/
def orderOf : List Op → Nat
  | [] => 3
  | .setOrder n :: _ => n
  | _ :: r => orderOf r

/-- The count that the n-gram `h w` should have after a history. -/
def count (w : Word) (h : List Word) : List Op → Rat
  | [] => 0
  | .clear :: _ => 0
  | .incr w' h' c :: r => count w h r + (if w = w' ∧ h = h' then c else 0)
  | .train s c lb :: r =>
    -- the occurrences of the n-gram in `<s> s </s>` count `c` each, if the count exceeds the cutoff
    if h.length < orderOf r ∧ 0 < occ (h ++ [w]) (framed s) ∧ count w h r + c * (occ (h ++ [w]) (framed s) : Rat) > lb
    then count w h r + c * (occ (h ++ [w]) (framed s) : Rat) else count w h r
  | _ :: r => count w h r

/-- The words that the model should know after a history. -/
def Known (x : Word) : List Op → Prop
  | [] => x = unkStr ∨ x = bosStr ∨ x = eosStr ∨ x = spStr
  | .addSymbol w :: r => Known x r ∨ x = w
  | .incr w h _ :: r => Known x r ∨ x ∈ w :: h
  | .train s c lb :: r => Known x r ∨
      ∃ w h, x ∈ w :: h ∧ h.length < orderOf r ∧ 0 < occ (h ++ [w]) (framed s) ∧
        count w h r + c * (occ (h ++ [w]) (framed s) : Rat) > lb
  | _ :: r => Known x r

/-! ### Proofs -/

theorem cSrcTrg_empty (s : List Nat) (t : Nat) : Table.empty.cSrcTrg s t = 0 := by
  rw [cSrcTrg_val]; exact val_nil _

theorem cSrc_empty (s : List Nat) : Table.empty.cSrc s = 0 := by
  rw [cSrc_val]
  split
  · rfl
  · exact val_nil _

theorem ok_clear {m : LM} (h : Ok m) : Ok m.clear :=
  ⟨h.enc, tblOk_empty, fun s t hn => absurd (cSrcTrg_empty s t) hn, fun s hn => absurd (cSrc_empty s) hn⟩

theorem ok_train {m : LM} (h : Ok m) (s : List Word) (c lb : Rat) : Ok (m.train s c lb).2 := by
  unfold LM.train
  split
  · exact h
  · exact ok_updates h _ _ _

theorem addSymbol_eq (m : LM) (w : Word) : m.addSymbol w = m.addSymbols [w] := rfl

theorem ok_step {m : LM} (h : Ok m) (op : Op) : Ok (step m op) := by
  cases op with
  | addSymbol w => exact ok_addSymbols h [w]
  | incr w hs c => exact ok_incrStr h _ _ _
  | train s c lb => exact ok_train h _ _ _
  | setOrder n => exact ⟨h.enc, h.tbl, h.suppST, h.suppS⟩
  | setWeights ws nb bs => exact ⟨h.enc, h.tbl, h.suppST, h.suppS⟩
  | clear => exact ok_clear h

theorem ok_run (ops : List Op) : Ok (run ops) := by
  induction ops with
  | nil => exact ok_new
  | cons op r ih => exact ok_step ih op

theorem order_train (m : LM) (s : List Word) (c lb : Rat) : (m.train s c lb).2.order = m.order := by
  unfold LM.train
  split
  · rfl
  · exact order_updates _ _ _ _

theorem order_run (ops : List Op) : (run ops).order = orderOf ops := by
  induction ops with
  | nil => rfl
  | cons op r ih =>
    cases op with
    | addSymbol w => exact ih
    | incr w hs c => exact (order_incrStr _ _ _ _).trans ih
    | train s c lb => exact (order_train _ _ _ _).trans ih
    | setOrder n => rfl
    | setWeights ws nb bs => exact ih
    | clear => exact ih

theorem count_run (ops : List Op) (w : Word) (h : List Word) : (run ops).cNgramStr w h = count w h ops := by
  induction ops with
  | nil =>
    unfold run LM.cNgramStr
    simp only [count]
    have := cSrcTrg_empty (LM.new.enc.codes h).2 (LM.new.enc.code w).2
    show (if _ then if _ then Table.empty.cSrcTrg _ _ else 0 else 0) = (0 : Rat)
    rw [this]
    split
    · split <;> rfl
    · rfl
  | cons op r ih =>
    have ok := ok_run r
    cases op with
    | addSymbol w' => exact (cNgramStr_addSymbols ok [w'] w h).trans ih
    | incr w' h' c => exact (cNgramStr_incrStr ok w' h' c w h).trans (by rw [ih]; rfl)
    | train s c lb =>
      have hs : run (.train s c lb :: r) = ((run r).train s c lb).2 := rfl
      rw [hs]
      simp only [count]
      by_cases ho : (run r).order = 0
      · have : ((run r).train s c lb).2 = run r := by unfold LM.train; rw [if_pos ho]
        rw [this, if_neg, ih]
        rw [← order_run, ho]; omega
      · rw [cNgramStr_train ok (by omega), ih, order_run]
        unfold upd
        grind
    | setOrder n => exact ih
    | setWeights ws nb bs => exact ih
    | clear =>
      show (run r).clear.cNgramStr w h = 0
      unfold LM.cNgramStr
      have := cSrcTrg_empty ((run r).clear.enc.codes h).2 ((run r).clear.enc.code w).2
      show (if _ then if _ then Table.empty.cSrcTrg _ _ else 0 else 0) = (0 : Rat)
      rw [this]
      split
      · split <;> rfl
      · rfl

theorem known_updates {m : LM} (h : Ok m) (c lb : Rat) (es : List (Ngram × Rat)) (hd : AMap.Distinct es) (x : Word) :
    (es.foldl (LM.update c lb) m).existSymbol x = true ↔ m.existSymbol x = true ∨
      ∃ w hs k, ((w, hs), k) ∈ es ∧ x ∈ w :: hs ∧ m.cNgramStr w hs + c * k > lb := by
  induction es generalizing m with
  | nil => simp
  | cons e es ih =>
    obtain ⟨h1, h2⟩ := List.nodup_cons.1 hd
    obtain ⟨⟨w, hs⟩, k⟩ := e
    rw [List.foldl_cons, ih (ok_update h c lb _) h2]
    have hk : (m.update c lb ((w, hs), k)).existSymbol x = true ↔
        m.existSymbol x = true ∨ (x ∈ w :: hs ∧ m.cNgramStr w hs + c * k > lb) := by
      unfold LM.update
      dsimp only
      split
      · rename_i hc; rw [existSymbol_incrStr h]; simp [hc]
      · rename_i hc; simp [hc]
    rw [hk]
    constructor
    · rintro ((a | ⟨a, b⟩) | ⟨w', hs', k', a, b, d⟩)
      · exact Or.inl a
      · exact Or.inr ⟨w, hs, k, List.mem_cons_self, a, b⟩
      · refine Or.inr ⟨w', hs', k', List.mem_cons_of_mem _ a, b, ?_⟩
        rw [cNgramStr_update h, if_neg] at d
        · exact d
        · intro he
          exact h1 (List.mem_map.2 ⟨_, a, he⟩)
    · rintro (a | ⟨w', hs', k', a, b, d⟩)
      · exact Or.inl (Or.inl a)
      · rcases List.mem_cons.1 a with a | a
        · obtain ⟨⟨rfl, rfl⟩, rfl⟩ : (w' = w ∧ hs' = hs) ∧ k' = k := by simpa using a
          exact Or.inl (Or.inr ⟨b, d⟩)
        · refine Or.inr ⟨w', hs', k', a, b, ?_⟩
          rw [cNgramStr_update h, if_neg]
          · exact d
          · intro he
            exact h1 (List.mem_map.2 ⟨_, a, he⟩)

theorem known_train {m : LM} (h : Ok m) (s : List Word) (c lb : Rat) (x : Word) :
    (m.train s c lb).2.existSymbol x = true ↔ m.existSymbol x = true ∨
      ∃ w hs, x ∈ w :: hs ∧ hs.length < m.order ∧ 0 < occ (hs ++ [w]) (framed s) ∧
        m.cNgramStr w hs + c * (occ (hs ++ [w]) (framed s) : Rat) > lb := by
  unfold LM.train
  split
  · rename_i h0
    dsimp only
    constructor
    · exact Or.inl
    · rintro (a | ⟨w, hs, _, b, _⟩)
      · exact a
      · omega
  · rename_i h0
    obtain ⟨h1, h2⟩ := lk_collect m.order (by omega) s
    dsimp only
    rw [known_updates h _ _ _ h1]
    constructor
    · rintro (a | ⟨w, hs, k, a, b, d⟩)
      · exact Or.inl a
      · have := (AMap.lk_some_iff h1).2 a
        rw [h2] at this
        split at this
        · rename_i hc
          injection this with this
          subst this
          exact Or.inr ⟨w, hs, b, hc.1, by omega, d⟩
        · cases this
    · rintro (a | ⟨w, hs, a, b, d, e⟩)
      · exact Or.inl a
      · refine Or.inr ⟨w, hs, _, (AMap.lk_some_iff h1).1 ?_, a, e⟩
        rw [h2, if_pos ⟨b, by omega⟩]

theorem mem_vocab (m : LM) (x : Word) : x ∈ m.enc.w2c.map Prod.fst ↔ m.existSymbol x = true := by
  unfold LM.existSymbol
  rw [code_true]
  cases hh : AMap.lk m.enc.w2c x with
  | none => simp; have := AMap.lk_none_iff.1 hh; simpa using this
  | some c =>
    simp
    apply Classical.byContradiction
    intro hn
    have : AMap.lk m.enc.w2c x = none := AMap.lk_none_iff.2 (by simpa using hn)
    rw [this] at hh; cases hh

theorem known_run (ops : List Op) (x : Word) : (run ops).existSymbol x = true ↔ Known x ops := by
  induction ops with
  | nil =>
    have hm : x ∈ LM.new.enc.w2c.map Prod.fst ↔ _ := mem_vocab LM.new x
    show LM.new.existSymbol x = true ↔ _
    rw [← hm]
    have hk : LM.new.enc.w2c.map Prod.fst = [unkStr, bosStr, eosStr, spStr] := by decide
    rw [hk]
    simp [Known]
  | cons op r ih =>
    have ok := ok_run r
    cases op with
    | addSymbol w' =>
      refine Iff.trans ((addSym_spec ok.enc w').2.2.2 x) ?_
      simp only [Known]
      rw [← ih]; rfl
    | incr w' h' c =>
      refine Iff.trans (existSymbol_incrStr ok w' h' c x) ?_
      simp only [Known]
      rw [← ih]
    | train s c lb =>
      refine Iff.trans (known_train ok s c lb x) ?_
      simp only [Known]
      rw [← ih, ← order_run]
      simp only [count_run]
    | setOrder n => exact ih
    | setWeights ws nb bs => exact ih
    | clear => exact ih

theorem ext_updates {m : LM} (h : Ok m) (c lb : Rat) (es : List (Ngram × Rat)) :
    Ext m.enc (es.foldl (LM.update c lb) m).enc := by
  induction es generalizing m with
  | nil => exact Ext.refl _
  | cons e es ih =>
    refine Ext.trans ?_ (ih (ok_update h c lb e))
    unfold LM.update
    split
    · exact ext_incrStr h _ _ _
    · exact Ext.refl _

theorem ext_step {m : LM} (h : Ok m) (op : Op) : Ext m.enc (step m op).enc := by
  cases op with
  | addSymbol w => exact (addSym_spec h.enc w).2.1
  | incr w hs c => exact ext_incrStr h _ _ _
  | train s c lb =>
    show Ext m.enc (m.train s c lb).2.enc
    unfold LM.train
    split
    · exact Ext.refl _
    · exact ext_updates h _ _ _
  | setOrder n => exact Ext.refl _
  | setWeights ws nb bs => exact Ext.refl _
  | clear => exact Ext.refl _

theorem ext_run (ops : List Op) : Ext Enc.lm (run ops).enc := by
  induction ops with
  | nil => exact Ext.refl _
  | cons op r ih => exact ih.trans (ext_step (ok_run r) op)

theorem nodup_length_eq {A : Type} [DecidableEq A] {a b : List A} (ha : a.Nodup) (hb : b.Nodup) (h : ∀ x, x ∈ a ↔ x ∈ b) :
    a.length = b.length := by
  have h1 := (List.perm_ext_iff_of_nodup ha hb).2 h
  exact h1.length_eq

theorem hist_run (ops : List Op) (h : List Word) (V : List Word) (hn : V.Nodup) (hV : ∀ x, Known x ops → x ∈ V) :
    (run ops).cHistStr h = sumBy (fun w => (run ops).cNgramStr w h) V := by
  have key : ∀ m : LM, ∀ es : List (Ngram × Rat), ∀ c lb : Rat, Ok m →
      (∀ x, (es.foldl (LM.update c lb) m).existSymbol x = true → x ∈ V) →
      m.cHistStr h = sumBy (fun w => m.cNgramStr w h) V →
      (es.foldl (LM.update c lb) m).cHistStr h = sumBy (fun w => (es.foldl (LM.update c lb) m).cNgramStr w h) V := by
    intro m es c lb
    induction es generalizing m with
    | nil => intro _ _ h2; exact h2
    | cons e es ih =>
      intro ok hk h2
      refine ih _ (ok_update ok c lb e) hk ?_
      have hk' : ∀ x, (m.update c lb e).existSymbol x = true → x ∈ V := by
        intro x hx
        refine hk x ?_
        have := ext_updates (ok_update ok c lb e) c lb es
        unfold LM.existSymbol at hx ⊢
        rw [List.foldl_cons, code_ext this hx]; exact hx
      unfold LM.update
      split
      · rename_i hc
        have hm : e.1.1 ∈ V := by
          refine hk' _ ?_
          unfold LM.update
          rw [if_pos hc, existSymbol_incrStr ok]
          exact Or.inr List.mem_cons_self
        rw [cHistStr_incrStr ok, h2]
        rw [sumBy_congr (fun w _ => cNgramStr_incrStr ok e.1.1 e.1.2 (c * e.2) w h), sumBy_add]
        congr 1
        by_cases he : h = e.1.2
        · subst he
          simp only [and_true, if_true]
          rw [sumBy_single _ _ hn, if_pos hm]
        · simp only [he, and_false, if_false]
          rw [sumBy_zero (fun _ _ => rfl)]
      · exact h2
  induction ops with
  | nil =>
    have h1 : ∀ w, (run []).cNgramStr w h = 0 := fun w => count_run [] w h
    rw [sumBy_zero (fun w _ => h1 w)]
    unfold LM.cHistStr
    show (if _ then Table.empty.cSrc _ else 0) = (0 : Rat)
    rw [cSrc_empty]; split <;> rfl
  | cons op r ih =>
    have ok := ok_run r
    cases op with
    | addSymbol w' =>
      have ih := ih (fun x hx => hV x (Or.inl hx))
      show ((run r).addSymbols [w']).cHistStr h = sumBy (fun w => ((run r).addSymbols [w']).cNgramStr w h) V
      rw [cHistStr_addSymbols ok, ih]
      exact sumBy_congr (fun w _ => (cNgramStr_addSymbols ok [w'] w h).symm)
    | incr w' h' c =>
      have ih := ih (fun x hx => hV x (Or.inl hx))
      have hm : w' ∈ V := hV w' (Or.inr List.mem_cons_self)
      show ((run r).incrStr w' h' c).cHistStr h = sumBy (fun w => ((run r).incrStr w' h' c).cNgramStr w h) V
      rw [cHistStr_incrStr ok, ih]
      rw [sumBy_congr (fun w _ => cNgramStr_incrStr ok w' h' c w h), sumBy_add]
      congr 1
      by_cases he : h = h'
      · subst he
        simp only [and_true, if_true]
        rw [sumBy_single _ _ hn, if_pos hm]
      · simp only [he, and_false, if_false]
        rw [sumBy_zero (fun _ _ => rfl)]
    | train s c lb =>
      have ih := ih (fun x hx => hV x (Or.inl hx))
      have hk : ∀ x, ((run r).train s c lb).2.existSymbol x = true → x ∈ V :=
        fun x hx => hV x ((known_run (.train s c lb :: r) x).1 hx)
      show ((run r).train s c lb).2.cHistStr h = sumBy (fun w => ((run r).train s c lb).2.cNgramStr w h) V
      by_cases h0 : (run r).order = 0
      · have ht : ((run r).train s c lb).2 = run r := by unfold LM.train; rw [if_pos h0]
        rw [ht]; exact ih
      · have ht : ((run r).train s c lb).2 = (inOrder (collect (run r).order s)).foldl (LM.update c lb) (run r) := by
          unfold LM.train; rw [if_neg h0]
        rw [ht] at hk ⊢
        exact key _ _ _ _ ok hk ih
    | setOrder n => exact ih hV
    | setWeights ws nb bs => exact ih hV
    | clear =>
      have h1 : ∀ w, (run (.clear :: r)).cNgramStr w h = 0 := fun w => count_run (.clear :: r) w h
      rw [sumBy_zero (fun w _ => h1 w)]
      unfold LM.cHistStr
      show (if _ then Table.empty.cSrc _ else 0) = (0 : Rat)
      rw [cSrc_empty]; split <;> rfl

/-! ### C97 -/

/-- C97. After any history of `addSymbol`, `incrCountsOfNgramStr`, `trainSentence`, `setNgramOrder`, `clear` and changes of
the weights on a new model: the known words are the standard symbols, the words added and the words of the n-grams
counted; words and codes correspond one to one; the standard symbols have the codes 0 to 3 and unknown words have the code
of the unknown word; the vocabulary size is the number of known words; and no later call changes the code of a known
word. (`loadVocab`, `clearVocab` and loading a file are not among the calls: see `C97_counterexample`.) -/
theorem C97_vocabulary_partial (ops : List Op) :
    (∀ x, (run ops).existSymbol x = true ↔ Known x ops) ∧
    (∀ x, Known x ops → (run ops).enc.decode ((run ops).index x) = some x) ∧
    (∀ x c, (run ops).enc.decode c = some x → Known x ops ∧ (run ops).index x = c) ∧
    (∀ x y, Known x ops → Known y ops → (run ops).index x = (run ops).index y → x = y) ∧
    ((run ops).index unkStr = 0 ∧ (run ops).index bosStr = 1 ∧ (run ops).index eosStr = 2 ∧ (run ops).index spStr = 3) ∧
    (∀ x, ¬ Known x ops → (run ops).index x = 0) ∧
    (∀ V : List Word, V.Nodup → (∀ x, x ∈ V ↔ Known x ops) → (run ops).vocabSize = V.length) ∧
    (∀ x, Known x ops → ∀ more, Known x (more ++ ops) ∧ (run (more ++ ops)).index x = (run ops).index x) := by
  have ok := ok_run ops
  have hi : ∀ x, Known x ops → (run ops).index x = ((run ops).enc.code x).2 :=
    fun x hx => index_known ((known_run ops x).2 hx)
  have hl : ∀ x, Known x ops → AMap.lk (run ops).enc.w2c x = some ((run ops).index x) := by
    intro x hx; rw [hi x hx]; exact lk_of_code ((known_run ops x).2 hx)
  have hd : ∀ x, Known x ops → (run ops).enc.decode ((run ops).index x) = some x :=
    fun x hx => (ok.enc.iff _ _).1 (hl x hx)
  have hs : ∀ x c, AMap.lk Enc.lm.w2c x = some c → (run ops).index x = c := by
    intro x c hx
    have h1 := code_some ((ext_run ops).keep _ _ hx)
    unfold LM.index; rw [h1]; rfl
  refine ⟨known_run ops, hd, ?_, ?_, ?_, ?_, ?_, ?_⟩
  · intro x c hx
    have h1 := (ok.enc.iff x c).2 hx
    have h2 : Known x ops := (known_run ops x).1 (code_true.2 ⟨c, h1⟩)
    refine ⟨h2, ?_⟩
    have h3 := hl x h2
    rw [h1] at h3; injection h3 with h3; exact h3.symm
  · intro x y hx hy he
    have h1 := hd x hx
    rw [he, hd y hy] at h1
    injection h1 with h1; exact h1.symm
  · exact ⟨hs _ _ (by decide), hs _ _ (by decide), hs _ _ (by decide), hs _ _ (by decide)⟩
  · intro x hx
    unfold LM.index
    rw [if_neg (c := ((run ops).enc.code x).1 = true) (fun hh => hx ((known_run ops x).1 hh))]
    rfl
  · intro V hV hVk
    unfold LM.vocabSize
    have := nodup_length_eq ok.enc.dist hV (fun x => by rw [mem_vocab, known_run, hVk])
    rw [← this, List.length_map]
  · intro x hx more
    induction more with
    | nil => exact ⟨hx, rfl⟩
    | cons op more ih =>
      have h1 := (known_run _ _).2 ih.1
      have h2 : ((run (op :: more ++ ops)).enc.code x) = ((run (more ++ ops)).enc.code x) :=
        code_ext (ext_step (ok_run (more ++ ops)) op) h1
      have h3 : (run (op :: (more ++ ops))).existSymbol x = true := by
        unfold LM.existSymbol; unfold LM.existSymbol at h1
        show ((run (op :: more ++ ops)).enc.code x).1 = true
        rw [h2]; exact h1
      refine ⟨(known_run _ _).1 h3, ?_⟩
      rw [← ih.2, index_known h1]
      show (run (op :: more ++ ops)).index x = _
      rw [← h2]; exact index_known h3

/-- The same after `loadVocab` (vecx_x_incr_enc.h:282-306) with the pairs of a file that `printVocab` can have written. -/
def C97_full : Prop :=
  ∀ (ps : List (Word × Nat)) (w : Word), (∀ p ∈ ps, 3 < p.2) → ps.Pairwise (fun a b => a.1 ≠ b.1 ∧ a.2 ≠ b.2) →
    let m := ({ LM.new with enc := LM.new.enc.load ps }).addSymbol w
    ∀ x y, m.existSymbol x = true → m.existSymbol y = true → m.index x = m.index y → x = y

/-- `loadVocab` does not tell the encoder which codes are in use: the next word added gets the code of a loaded one. -/
theorem C97_counterexample : ¬ C97_full := by
  intro h
  have := h [(['a'], 4)] ['b'] (by decide) (by decide)
  exact absurd (this ['a'] ['b'] (by decide) (by decide) (by decide)) (by decide)

/-- Non-vacuity of C97. -/
example : Known ['a'] [.train [['a'], ['b']] 1 0, .addSymbol ['z']] ∧
    (run [.train [['a'], ['b']] 1 0, .addSymbol ['z']]).index ['a'] = 5 ∧
    (run [.train [['a'], ['b']] 1 0, .addSymbol ['z']]).vocabSize = 7 := by
  refine ⟨(known_run _ _).1 ?_, ?_, ?_⟩ <;> decide +kernel

/-! ### C98 -/

/-- C98. After any history of calls on a new model, the count reported for an n-gram is the sum of the weights of its
occurrences in the training sentences (with `<s>` and `</s>`), for histories shorter than the order in force, provided
that the cutoff was exceeded; and the count reported for a history is the sum of the counts of its continuations. -/
theorem C98_counts (ops : List Op) :
    (∀ w h, (run ops).cNgramStr w h = count w h ops) ∧
    (∀ h, ∀ V : List Word, V.Nodup → (∀ x, Known x ops → x ∈ V) →
      (run ops).cHistStr h = (V.map (fun w => count w h ops)).sum) := by
  refine ⟨count_run ops, ?_⟩
  intro h V hn hV
  rw [hist_run ops h V hn hV]
  unfold sumBy
  congr 1
  exact List.map_congr_left (fun w _ => count_run ops w h)

theorem count_nonneg_trains (ts : List (List Word × Rat)) (hc : ∀ t ∈ ts, 0 ≤ t.2) (w : Word) (h : List Word) :
    0 ≤ (ts.map (fun t => t.2 * (occ (h ++ [w]) (framed t.1) : Rat))).sum := by
  induction ts with
  | nil => exact Rat.le_refl
  | cons t ts ih =>
    rw [List.map_cons, List.sum_cons]
    have h1 := ih (fun t ht => hc t (List.mem_cons_of_mem _ ht))
    have h2 := Rat.mul_nonneg (hc t List.mem_cons_self) (Rat.natCast_nonneg (a := occ (h ++ [w]) (framed t.1)))
    grind

/-- C98, closed form: after training sentences with weights `c ≥ 0` and cutoff 0 on a new model of order `n`, the count of
an n-gram is the weighted number of its occurrences. -/
theorem C98_trained (n : Nat) (ts : List (List Word × Rat)) (hc : ∀ t ∈ ts, 0 ≤ t.2) (w : Word) (h : List Word) :
    (run (ts.map (fun t => Op.train t.1 t.2 0) ++ [Op.setOrder n])).cNgramStr w h =
      if h.length < n then (ts.map (fun t => t.2 * (occ (h ++ [w]) (framed t.1) : Rat))).sum else 0 := by
  rw [count_run]
  have ho : ∀ ts : List (List Word × Rat), orderOf (ts.map (fun t => Op.train t.1 t.2 0) ++ [Op.setOrder n]) = n := by
    intro ts
    induction ts with
    | nil => rfl
    | cons t ts ih => exact ih
  induction ts with
  | nil => simp [count]
  | cons t ts ih =>
    have ih := ih (fun t ht => hc t (List.mem_cons_of_mem _ ht))
    have h0 := count_nonneg_trains ts (fun t ht => hc t (List.mem_cons_of_mem _ ht)) w h
    have h2 := Rat.mul_nonneg (hc t List.mem_cons_self) (Rat.natCast_nonneg (a := occ (h ++ [w]) (framed t.1)))
    simp only [List.map_cons, List.cons_append, count, ho, ih, List.sum_cons]
    by_cases hl : h.length < n
    · simp only [hl, if_true, true_and]
      by_cases h3 : 0 < occ (h ++ [w]) (framed t.1)
      · by_cases h4 : (ts.map (fun t => t.2 * (occ (h ++ [w]) (framed t.1) : Rat))).sum +
            t.2 * (occ (h ++ [w]) (framed t.1) : Rat) > 0
        · rw [if_pos ⟨h3, h4⟩]; grind
        · rw [if_neg (fun hh => h4 hh.2)]; grind
      · rw [if_neg (fun hh => h3 hh.1)]
        have : occ (h ++ [w]) (framed t.1) = 0 := by omega
        rw [this]; grind
    · simp [hl]

theorem occ_cons_le (a : Word) (g l : List Word) : occ (a :: g) l ≤ occ g l := by
  unfold occ
  refine List.countP_mono_left ?_
  intro i _ hi
  rw [List.isSuffixOf_iff_suffix] at hi ⊢
  exact (List.suffix_cons a g).trans hi

/-- The calls of a history are trainings with non-negative weights (and calls that count nothing). -/
def Trained : Op → Prop
  | .train _ c _ => 0 ≤ c
  | .incr _ _ _ => False
  | _ => True

theorem count_cons_le (ops : List Op) (ht : ∀ op ∈ ops, Trained op) (w a : Word) (h : List Word) :
    count w (a :: h) ops ≤ count w h ops := by
  induction ops with
  | nil => exact Rat.le_refl
  | cons op r ih =>
    have ih := ih (fun o ho => ht o (List.mem_cons_of_mem _ ho))
    cases op with
    | addSymbol w' => exact ih
    | incr w' h' c => exact absurd (ht _ List.mem_cons_self) (fun hh => hh)
    | train s c lb =>
      have hc : 0 ≤ c := ht _ List.mem_cons_self
      have h1 := occ_cons_le a (h ++ [w]) (framed s)
      have h2 : c * (occ (a :: (h ++ [w])) (framed s) : Rat) ≤ c * (occ (h ++ [w]) (framed s) : Rat) :=
        Rat.mul_le_mul_of_nonneg_left (Rat.natCast_le_natCast.2 h1) hc
      have h3 : 0 ≤ c * (occ (h ++ [w]) (framed s) : Rat) := Rat.mul_nonneg hc Rat.natCast_nonneg
      simp only [count, List.cons_append, List.length_cons]
      split
      · rename_i hx
        obtain ⟨x1, x2, x3⟩ := hx
        rw [if_pos ⟨by omega, by omega, by grind⟩]
        grind
      · split
        · grind
        · exact ih
    | setOrder n => exact ih
    | setWeights ws nb bs => exact ih
    | clear => exact Rat.le_refl

/-- C98, consistency: in a model built by training alone (any cutoffs, any changes of the order), a longer history never
has a larger count, neither the n-gram nor the history itself; a history that was seen has all its suffixes seen. -/
theorem C98_suffix (ops : List Op) (ht : ∀ op ∈ ops, Trained op) (a : Word) (h : List Word) :
    (∀ w, (run ops).cNgramStr w (a :: h) ≤ (run ops).cNgramStr w h) ∧
    (run ops).cHistStr (a :: h) ≤ (run ops).cHistStr h := by
  have hc : ∀ w, (run ops).cNgramStr w (a :: h) ≤ (run ops).cNgramStr w h := by
    intro w; rw [count_run, count_run]; exact count_cons_le ops ht w a h
  refine ⟨hc, ?_⟩
  have hV : ∀ x, Known x ops → x ∈ (run ops).enc.w2c.map Prod.fst := fun x hx => (mem_vocab _ _).2 ((known_run ops x).2 hx)
  rw [hist_run ops (a :: h) _ (ok_run ops).enc.dist hV, hist_run ops h _ (ok_run ops).enc.dist hV]
  exact sumBy_le (fun w _ => hc w)

/-- Non-vacuity of C98: "a b a b" with weight 2. -/
example : (run [.train [['a'], ['b'], ['a'], ['b']] 2 0]).cNgramStr ['b'] [['a']] = 4 ∧
    (run [.train [['a'], ['b'], ['a'], ['b']] 2 0]).cHistStr [['a']] = 4 ∧
    (run [.train [['a'], ['b'], ['a'], ['b']] 2 0]).cNgramStr ['a'] [bosStr] = 2 ∧
    (run [.train [['a'], ['b'], ['a'], ['b']] 2 0]).cNgramStr eosStr [['a'], ['b']] = 2 := by decide +kernel

end Thot.LangModel

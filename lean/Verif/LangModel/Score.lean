import Verif.LangModel.Prob
/-! C100 (score of a sentence) and C102 (perplexity) of the n-gram language model. -/
namespace Thot.LangModel

open Thot

/-! ### Specification -/

/-- The last `k` elements. -/
def lastN {A : Type} (k : Nat) (l : List A) : List A := l.drop (l.length - k)

/-- Score of the words that follow `past`, with histories of `n - 1` words: each word is scored given the `n - 1` words
before it, begin of sentence symbols standing before the first word (extra ones are dropped). -/
def total (lg : Rat → Rat) (m : LM) (n : Nat) (past : List Word) : List Word → Rat
  | [] => 0
  | w :: r =>
    lg (jm m m.vocabSize w (strip (lastN (n - 1) (List.replicate (n - 1) bosStr ++ past)))) + total lg m n (past ++ [w]) r

/-- Words that the model does not know stand for the unknown word. -/
def known (m : LM) (s : List Word) : List Word := s.map (fun w => if m.existSymbol w then w else unkStr)

/-! ### Proofs -/

theorem lastN_snoc {A : Type} (k : Nat) (hk : 0 < k) (l : List A) (hl : k ≤ l.length) (a : A) :
    lastN k (l ++ [a]) = (lastN k l).tail ++ [a] := by
  unfold lastN
  rw [List.tail_drop, List.length_append]
  have : l.length + [a].length - k = l.length - k + 1 := by simp; omega
  rw [this, List.drop_append_of_le_length (by omega)]

theorem lastN_length {A : Type} (k : Nat) (l : List A) (hl : k ≤ l.length) : (lastN k l).length = k := by
  unfold lastN; simp; omega

theorem codes_tail (e : Enc) (h : List Word) : (e.codes h.tail).2 = (e.codes h).2.tail := by
  cases h <;> rfl

theorem codes_snoc (e : Enc) (h : List Word) (w : Word) : (e.codes (h ++ [w])).2 = (e.codes h).2 ++ [(e.code w).2] := by
  simp [Enc.codes]

/-- The state after a word. -/
theorem nextState_codes (m : LM) (n : Nat) (past : List Word) (w : Word) :
    nextState (m.enc.code w).2 (m.enc.codes (lastN (n - 1) (List.replicate (n - 1) bosStr ++ past))).2 =
      (m.enc.codes (lastN (n - 1) (List.replicate (n - 1) bosStr ++ (past ++ [w])))).2 := by
  unfold nextState
  have hl : n - 1 ≤ (List.replicate (n - 1) bosStr ++ past).length := by simp
  by_cases h0 : n - 1 = 0
  · rw [h0]
    simp [lastN, Enc.codes]
  · rw [if_pos (by rw [codes_length, lastN_length _ _ hl]; omega), ← codes_tail, ← codes_snoc, ← List.append_assoc,
      lastN_snoc _ (by omega) _ hl]

theorem mem_lastN {A : Type} {k : Nat} {l : List A} {x : A} (h : x ∈ lastN k l) : x ∈ l :=
  (List.drop_suffix _ _).subset h

theorem lgProb_hist {m : LM} (r : Reach m) (lg : Rat → Rat) (n : Nat) (hw : WOk m (n - 1)) (past : List Word)
    (hp : ∀ x ∈ past, m.existSymbol x = true) (w : Word) (hx : m.existSymbol w = true) :
    m.lgProb lg (m.enc.code w).2 (m.enc.codes (lastN (n - 1) (List.replicate (n - 1) bosStr ++ past))).2 =
      some (lg (jm m m.vocabSize w (strip (lastN (n - 1) (List.replicate (n - 1) bosStr ++ past))))) := by
  have hl : n - 1 ≤ (List.replicate (n - 1) bosStr ++ past).length := by simp
  have hk : ∀ x ∈ lastN (n - 1) (List.replicate (n - 1) bosStr ++ past), m.existSymbol x = true := by
    intro x hh
    rcases List.mem_append.1 (mem_lastN hh) with h1 | h1
    · rw [(List.mem_replicate.1 h1).2]; exact r.std.1
    · exact hp x h1
  have := prob_jm r (w := w) (h := lastN (n - 1) (List.replicate (n - 1) bosStr ++ past))
    (by rw [lastN_length _ _ hl]; exact hw) hk hx
  unfold prob at this
  unfold LM.lgProb
  rw [this]; rfl

theorem scoreLoop_total {m : LM} (r : Reach m) (lg : Rat → Rat) (n : Nat) (hw : WOk m (n - 1)) (ws : List Word) :
    ∀ (past : List Word) (tot : Rat), (∀ x ∈ past, m.existSymbol x = true) → (∀ x ∈ ws, m.existSymbol x = true) →
    ∃ q, m.scoreLoop lg (ws.map (fun w => (m.enc.code w).2))
        (m.enc.codes (lastN (n - 1) (List.replicate (n - 1) bosStr ++ past))).2 tot =
          some (q, (m.enc.codes (lastN (n - 1) (List.replicate (n - 1) bosStr ++ (past ++ ws)))).2) ∧
      ∀ more, total lg m n past (ws ++ more) = (q - tot) + total lg m n (past ++ ws) more := by
  induction ws with
  | nil =>
    intro past tot _ _
    refine ⟨tot, by simp [LM.scoreLoop], ?_⟩
    intro more
    simp only [List.nil_append, List.append_nil]; grind
  | cons w ws ih =>
    intro past tot hp hk
    have h1 := lgProb_hist r lg n hw past hp w (hk w List.mem_cons_self)
    have h2 := nextState_codes m n past w
    obtain ⟨q, h3, h4⟩ := ih (past ++ [w])
      (tot + lg (jm m m.vocabSize w (strip (lastN (n - 1) (List.replicate (n - 1) bosStr ++ past)))))
      (by intro x hx
          rcases List.mem_append.1 hx with hh | hh
          · exact hp x hh
          · simp at hh; subst hh; exact hk _ List.mem_cons_self)
      (fun x hx => hk x (List.mem_cons_of_mem _ hx))
    refine ⟨q, ?_, ?_⟩
    · rw [List.map_cons]
      unfold LM.scoreLoop LM.lgProbState
      rw [h1]
      simp only [Option.map_some, Option.bind_eq_bind, Option.bind_some, h2]
      rw [h3]; simp
    · intro more
      rw [List.cons_append]
      simp only [total]
      rw [h4]
      simp only [List.append_assoc, List.cons_append, List.nil_append]
      grind

theorem sentence_total {m : LM} (r : Reach m) (hu : m.index unkStr = unkSymbol ∧ m.existSymbol unkStr = true)
    (lg : Rat → Rat) (k : Rat) (hw : WOk m (m.order - 1)) (s : List Word) :
    m.sentenceStr lg k s = some (total lg m m.order [] (known m s ++ [eosStr]) * k) := by
  have he : s.map m.index = (known m s).map (fun w => (m.enc.code w).2) := by
    unfold known
    rw [List.map_map]
    refine List.map_congr_left ?_
    intro w _
    simp only [Function.comp]
    by_cases hx : m.existSymbol w = true
    · rw [if_pos hx]; exact index_known hx
    · rw [if_neg hx, ← index_known hu.2, hu.1]
      unfold LM.index
      rw [if_neg (c := (m.enc.code w).1 = true) hx]
  have hk : ∀ x ∈ known m s, m.existSymbol x = true := by
    intro x hx
    obtain ⟨w, _, rfl⟩ := List.mem_map.1 hx
    by_cases h : m.existSymbol w = true
    · rw [if_pos h]; exact h
    · rw [if_neg h]; exact hu.2
  have hb : m.bosState = (m.enc.codes (lastN (m.order - 1) (List.replicate (m.order - 1) bosStr ++ []))).2 := by
    unfold LM.bosState lastN Enc.codes
    simp [LM.bosId]
  obtain ⟨q, h1, h2⟩ := scoreLoop_total r lg m.order hw (known m s) [] 0 (by simp) hk
  have h3 := lgProb_hist r lg m.order hw (known m s) hk eosStr r.std.2
  have h4 := h2 [eosStr]
  simp only [total, List.nil_append] at h4 h1
  unfold LM.sentenceStr LM.sentence
  rw [he, hb, h1]
  unfold LM.lgProbEndState LM.eosId
  simp only [Option.bind_eq_bind, Option.bind_some]
  rw [h3, h4]
  simp only [Option.map_some, Option.bind_some]
  congr 1
  grind

theorem strip_lastN (n : Nat) (past : List Word) (hb : bosStr ∉ past) :
    strip (lastN n (List.replicate n bosStr ++ past)) = lastN n (bosStr :: past) := by
  -- the state is made of begin of sentence symbols followed by words
  have key : ∀ j, ∀ p : List Word, bosStr ∉ p → strip (List.replicate (j + 1) bosStr ++ p) = bosStr :: p := by
    intro j
    induction j with
    | zero =>
      intro p hp
      cases p with
      | nil => rfl
      | cons a p =>
        show strip (bosStr :: a :: p) = _
        unfold strip
        rw [if_neg]
        rintro ⟨_, rfl⟩
        exact hp List.mem_cons_self
    | succ j ih =>
      intro p hp
      have h1 : List.replicate (j + 1 + 1) bosStr ++ p = bosStr :: bosStr :: (List.replicate j bosStr ++ p) := rfl
      rw [h1]
      unfold strip
      rw [if_pos ⟨rfl, rfl⟩]
      exact ih p hp
  have key2 : ∀ p : List Word, bosStr ∉ p → strip p = p := by
    intro p hp
    match p with
    | [] => rfl
    | [a] => rfl
    | a :: b :: p =>
      unfold strip
      rw [if_neg]
      rintro ⟨rfl, _⟩
      exact hp List.mem_cons_self
  unfold lastN
  simp only [List.length_append, List.length_replicate, List.length_cons]
  by_cases h : past.length < n
  · have e1 : n + past.length - n = past.length := by omega
    have e2 : past.length + 1 - n = 0 := by omega
    rw [e1, e2, List.drop_zero, List.drop_append_of_le_length (by simp; omega), List.drop_replicate]
    obtain ⟨j, hj⟩ : ∃ j, n - past.length = j + 1 := ⟨n - past.length - 1, by omega⟩
    rw [hj]
    exact key j past hb
  · have e1 : n + past.length - n = n + (past.length - n) := by omega
    have e2 : past.length + 1 - n = (past.length - n) + 1 := by omega
    rw [e1, e2, List.drop_succ_cons]
    have e3 : (List.replicate n bosStr ++ past).drop (n + (past.length - n)) = past.drop (past.length - n) := by
      rw [← List.drop_drop, List.drop_left' (by simp)]
    rw [e3]
    exact key2 _ (fun hh => hb ((List.drop_suffix _ _).subset hh))

/-! ### C100 -/

/-- C100. The score of a sentence (`getSentenceLog10ProbStr`) is the sum, times `1/ln 10`, of the log-probabilities of its
words and of the end of sentence symbol, each given the `n - 1` words before it; words that are not known count as the
unknown word. In a sentence without `<s>` the history of a word consists of the last `n - 1` words of `<s>` and the words
before it. For every history of calls with non-negative counts, and weights for all the lengths of histories. -/
theorem C100_sentence (ops : List Op) (hn : ∀ op ∈ ops, NonNeg op) (hw : WOk (run ops) (orderOf ops - 1))
    (lg : Rat → Rat) (k : Rat) (s : List Word) :
    (run ops).sentenceStr lg k s = some (total lg (run ops) (orderOf ops) [] (known (run ops) s ++ [eosStr]) * k) ∧
    ∀ past, bosStr ∉ past →
      strip (lastN (orderOf ops - 1) (List.replicate (orderOf ops - 1) bosStr ++ past)) =
        lastN (orderOf ops - 1) (bosStr :: past) := by
  refine ⟨?_, fun past hp => strip_lastN _ past hp⟩
  have h1 : (run ops).index unkStr = 0 := (C97_vocabulary_partial ops).2.2.2.2.1.1
  have h2 : (run ops).existSymbol unkStr = true :=
    code_true.2 ⟨0, (ext_run ops).keep _ _ (by decide)⟩
  have := sentence_total (reach_run ops hn) ⟨h1, h2⟩ lg k (by rw [order_run]; exact hw) s
  rw [order_run] at this
  exact this

/-- Non-vacuity of C100: a trained trigram model, with the identity in the place of the logarithm. -/
example : WOk (run [.train [['a'], ['b']] 1 0]) 2 ∧
    (run [.train [['a'], ['b']] 1 0]).sentenceStr id 1 [['a'], ['z']] =
      some (total id (run [.train [['a'], ['b']] 1 0]) 3 [] [['a'], unkStr, eosStr] * 1) ∧
    total id (run [.train [['a'], ['b']] 1 0]) 3 [] [['a'], unkStr, eosStr] = 65/96 := by
  refine ⟨⟨Or.inl (by decide +kernel), by decide +kernel, by decide +kernel⟩, by decide +kernel, by decide +kernel⟩

/-! ### C102 -/

theorem perpLoop_spec (lg : Rat → Rat) (k : Rat) (m : LM) (f : List Word → Rat)
    (lines : List (List Word)) (hf : ∀ l ∈ lines, m.sentenceStr lg k l = some (f l)) (hb : ∀ l ∈ lines, l ≠ []) :
    ∀ logp tot nw ns, m.perpLoop lg k lines logp (tot, nw, ns) =
      some (tot + (lines.map f).sum, nw + (lines.map List.length).sum, ns + lines.length) := by
  induction lines with
  | nil => intro logp tot nw ns; simp [LM.perpLoop]; grind
  | cons l ls ih =>
    intro logp tot nw ns
    have hl := List.length_pos_iff.2 (hb l List.mem_cons_self)
    unfold LM.perpLoop
    rw [if_pos (c := l.length ≥ 1) hl, hf l List.mem_cons_self]
    simp only [Option.bind_eq_bind, Option.bind_some]
    rw [ih (fun l hl => hf l (List.mem_cons_of_mem _ hl)) (fun l hl => hb l (List.mem_cons_of_mem _ hl))]
    simp only [List.map_cons, List.sum_cons, List.length_cons, Option.some.injEq, Prod.mk.injEq]
    refine ⟨by grind, by omega, by omega⟩

/-- C102. For a corpus without blank lines, `perplexity` reports the sum of the scores of the lines, the number of words
and the number of lines, and the exponent of the perplexity is minus the mean score per word, an end of sentence for each
line included. -/
theorem C102_perplexity_partial (ops : List Op) (hn : ∀ op ∈ ops, NonNeg op) (hw : WOk (run ops) (orderOf ops - 1))
    (lg : Rat → Rat) (k logp0 : Rat) (lines : List (List Word)) (hb : ∀ l ∈ lines, l ≠ []) :
    (run ops).perplexity lg k logp0 lines =
      let tot := (lines.map (fun s => total lg (run ops) (orderOf ops) [] (known (run ops) s ++ [eosStr]) * k)).sum
      let words := (lines.map List.length).sum
      some (tot, words, lines.length, -(tot / ((words + lines.length : Nat) : Rat))) := by
  dsimp only
  have h := perpLoop_spec lg k (run ops)
    (fun s => total lg (run ops) (orderOf ops) [] (known (run ops) s ++ [eosStr]) * k) lines
    (fun l _ => (C100_sentence ops hn hw lg k l).1) hb logp0 0 0 0
  unfold LM.perplexity
  rw [h]
  simp only [Option.map_some, Nat.zero_add, Rat.zero_add]

/-- The contribution of a blank line does not depend on the other lines: for some amount `z` per blank line the total is
the sum over the lines. -/
def C102_full : Prop :=
  ∀ (ops : List Op), (∀ op ∈ ops, NonNeg op) → WOk (run ops) (orderOf ops - 1) → ∀ (lg : Rat → Rat) (k logp0 : Rat),
    ∃ z : Rat, ∀ lines : List (List Word), ((run ops).perplexity lg k logp0 lines).map (fun r => r.1) =
      some ((lines.map (fun s => if s = [] then z
        else total lg (run ops) (orderOf ops) [] (known (run ops) s ++ [eosStr]) * k)).sum)

/-- A blank line counts as a repetition of the line before it. -/
theorem C102_counterexample : ¬ C102_full := by
  intro hf
  obtain ⟨z, h⟩ := hf [.train [['a'], ['b']] 1 0] (by intro op ho; simp at ho; subst ho; show (0 : Rat) ≤ 1; decide)
    ⟨Or.inl (by decide +kernel), by decide +kernel, by decide +kernel⟩ id 1 0
  have h1 := h [[['a']], []]
  have h2 := h [[['b']], []]
  have e1 : ((run [.train [['a'], ['b']] 1 0]).perplexity id 1 0 [[['a']], []]).map (fun r => r.1) = some (2 * total id
      (run [.train [['a'], ['b']] 1 0]) 3 [] (known (run [.train [['a'], ['b']] 1 0]) [['a']] ++ [eosStr])) := by
    decide +kernel
  have e2 : ((run [.train [['a'], ['b']] 1 0]).perplexity id 1 0 [[['b']], []]).map (fun r => r.1) = some (2 * total id
      (run [.train [['a'], ['b']] 1 0]) 3 [] (known (run [.train [['a'], ['b']] 1 0]) [['b']] ++ [eosStr])) := by
    decide +kernel
  have e3 : total id (run [.train [['a'], ['b']] 1 0]) 3 [] (known (run [.train [['a'], ['b']] 1 0]) [['a']] ++ [eosStr]) ≠
      total id (run [.train [['a'], ['b']] 1 0]) 3 [] (known (run [.train [['a'], ['b']] 1 0]) [['b']] ++ [eosStr]) := by
    decide +kernel
  rw [e1] at h1
  rw [e2] at h2
  simp only [List.map_cons, List.map_nil, List.sum_cons, List.sum_nil, Option.some.injEq, if_true] at h1 h2
  rw [if_neg (by simp)] at h1 h2
  have ho : orderOf [Op.train [['a'], ['b']] 1 0] = 3 := rfl
  rw [ho] at h1 h2
  grind

end Thot.LangModel

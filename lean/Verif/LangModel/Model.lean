import Verif.Common.AMap
import Verif.TrieVecs.Model
/-!
Model of the incremental n-gram language models with Jelinek-Mercer interpolation: the encoder of words
(src/incr_models/vecx_x_incr_enc.h, lm_ienc.cc), the table of counts (vecx_x_incr_cptable.h), the model
(_incrEncCondProbModel.h, _incrNgramLM.h, _incrJelMerNgramLM.h) and the training and scoring of sentences
(src/nlp_common/BaseIncrNgramLM.h, BaseNgramLM.h).

Simplifications: numbers are exact rationals (`float` in the program), so rounding, overflow and the detour of counts
through logarithms (`exp(log(c))`) are left out; counts are required to be non-negative where that detour matters. Word
codes are natural numbers (no wrap-around at 2^32). Words are lists of characters. `log` is a parameter.
-/
namespace Thot.LangModel

open Thot

abbrev Word := List Char

/-- LM_Defs.h:71-74. -/
def unkStr : Word := ['<', 'u', 'n', 'k', '>']
def bosStr : Word := ['<', 's', '>']
def eosStr : Word := ['<', '/', 's', '>']
def spStr : Word := ['<', 's', 'p', '_', 's', 'y', 'm', '1', '>']

/-- LM_Defs.h:67 `UNK_SYMBOL`. -/
def unkSymbol : Nat := 0

/-! ### Encoder -/

/-- vecx_x_incr_enc.h:111-113: `hx_to_x`, `x_to_hx` and the last code given, `x_object`. -/
structure Enc where
  w2c : List (Word × Nat)
  c2w : List (Nat × Word)
  last : Nat
  deriving DecidableEq

/-- vecx_x_incr_enc.h:347-353 `clear` (called by the constructor). -/
def Enc.empty : Enc := ⟨[], [], 0⟩

/-- vecx_x_incr_enc.h:274-279 `addHTrgCode(ht,t)`. -/
def Enc.addCode (e : Enc) (ht : Word) (t : Nat) : Enc :=
  { e with w2c := AMap.put e.w2c ht t, c2w := AMap.put e.c2w t ht }

/-- lm_ienc.cc:38-53 constructor: the four standard symbols. -/
def Enc.lm : Enc :=
  { ((((Enc.empty.addCode unkStr 0).addCode bosStr 1).addCode eosStr 2).addCode spStr 3) with last := 3 }

/-- lm_ienc.cc:79-92 `HighTrg_to_Trg`: found, and the code (`UNK_SYMBOL` if not found). -/
def Enc.code (e : Enc) (ht : Word) : Bool × Nat :=
  match AMap.lk e.w2c ht with
  | none => (false, unkSymbol)
  | some t => (true, t)

/-- lm_ienc.cc:56-77 `HighSrc_to_Src`. -/
def Enc.codes (e : Enc) (hs : List Word) : Bool × List Nat :=
  (hs.all (fun h => (e.code h).1), hs.map (fun h => (e.code h).2))

/-- vecx_x_incr_enc.h:198-213 `Trg_to_HighTrg`. -/
def Enc.decode (e : Enc) (t : Nat) : Option Word := AMap.lk e.c2w t

/-- vecx_x_incr_enc.h:174-195 `Src_to_HighSrc` (the words written before a failure are not modelled). -/
def Enc.decodes (e : Enc) (s : List Nat) : Option (List Word) := s.mapM e.decode

/-- vecx_x_incr_enc.h:240-255 `genHTrgCode`. -/
def Enc.gen (e : Enc) (ht : Word) : Enc × Nat :=
  match AMap.lk e.w2c ht with
  | none => ({ e with last := e.last + 1 }, e.last + 1)
  | some t => (e, t)

/-- vecx_x_incr_enc.h:216-237 `genHSrcCode`: every word without code gets the next one. -/
def Enc.gens : Enc → List Word → Enc × List Nat
  | e, [] => (e, [])
  | e, h :: hs => ((Enc.gens (e.gen h).1 hs).1, (e.gen h).2 :: (Enc.gens (e.gen h).1 hs).2)

/-- vecx_x_incr_enc.h:258-271 `addHSrcCode(hs,s)`. -/
def Enc.addCodes : Enc → List Word → List Nat → Enc
  | e, h :: hs, t :: ts => Enc.addCodes (e.addCode h t) hs ts
  | e, _, _ => e

/-- _incrEncCondProbModel.h:621-632 `addHTrgCode(ht)`. -/
def Enc.addSym (e : Enc) (ht : Word) : Enc :=
  if (e.code ht).1 then e else (e.gen ht).1.addCode ht (e.gen ht).2

/-- _incrEncCondProbModel.h:607-618 `addHSrcCode(hs)` (also 206-210): the encoder afterwards and the codes. -/
def Enc.addSrc (e : Enc) (hs : List Word) : Enc × List Nat :=
  if (e.codes hs).1 then (e, (e.codes hs).2)
  else ((e.gens hs).1.addCodes hs (e.gens hs).2, (e.gens hs).2)

/-- vecx_x_incr_enc.h:282-306 `load`: the pairs of the file are stored; `x_object` is not updated. -/
def Enc.load (e : Enc) (ps : List (Word × Nat)) : Enc := ps.foldl (fun e p => e.addCode p.1 p.2) e

/-! ### Table of counts -/

/-- vecx_x_incr_cptable.h:125-128: `srcTrgInfo`, `srcInfo` and `srcInfoNull`. -/
structure Table where
  st : TrieVecs.T Rat
  s : TrieVecs.T Rat
  s0 : Rat
  deriving DecidableEq

/-- Constructor and `clear` (vecx_x_incr_cptable.h:141-148; `Count()` is 0, Count.h:42). -/
def Table.empty : Table := ⟨.nil, .nil, 0⟩

/-- vecx_x_incr_cptable.h:167-179 `addSrcInfo`. -/
def Table.addSrcInfo (tb : Table) (s : List Nat) (x : Rat) : Table :=
  if s ≠ [] then { tb with s := TrieVecs.insert 0 x tb.s s } else { tb with s0 := x }

/-- vecx_x_incr_cptable.h:182-199 `addSrcTrgInfo`. -/
def Table.addSrcTrgInfo (tb : Table) (s : List Nat) (t : Nat) (x : Rat) : Table :=
  { tb with st := TrieVecs.insert 0 x tb.st (s ++ [t]) }

/-- vecx_x_incr_cptable.h:157-164 `addTableEntry`. -/
def Table.addEntry (tb : Table) (s : List Nat) (t : Nat) (cs cst : Rat) : Table :=
  (tb.addSrcInfo s cs).addSrcTrgInfo s t cst

/-- vecx_x_incr_cptable.h:218-229, 231-245: increase what is stored for a sequence, or store it. -/
def bump (t : TrieVecs.T Rat) (ks : List Nat) (c : Rat) : TrieVecs.T Rat :=
  match TrieVecs.find t ks with
  | none => TrieVecs.insert 0 (0 + c) t ks
  | some _ => TrieVecs.modify (· + c) t ks

/-- vecx_x_incr_cptable.h:202-250 `incrCountsOfEntryLog` with `lc` the logarithm of `c` (BaseIncrCondProbTable.h:137-142). -/
def Table.incr (tb : Table) (s : List Nat) (t : Nat) (c : Rat) : Table :=
  let tb := { tb with st := bump tb.st (s ++ [t]) c }
  if s ≠ [] then { tb with s := bump tb.s s c } else { tb with s0 := tb.s0 + c }

/-- vecx_x_incr_cptable.h:549-573 `cSrcTrg`. -/
def Table.cSrcTrg (tb : Table) (s : List Nat) (t : Nat) : Rat :=
  match TrieVecs.find tb.st (s ++ [t]) with
  | none => 0
  | some x => x

/-- vecx_x_incr_cptable.h:576-594 `cSrc`. -/
def Table.cSrc (tb : Table) (s : List Nat) : Rat :=
  if s = [] then tb.s0
  else match TrieVecs.find tb.s s with
    | none => 0
    | some x => x

/-- vecx_x_incr_cptable.h:357-377 `pTrgGivenSrc`, with 253-293 `infSrcTrg`. -/
def Table.p (tb : Table) (s : List Nat) (t : Nat) : Rat :=
  match TrieVecs.find tb.st (s ++ [t]) with
  | none => 0
  | some x => if tb.cSrc s = 0 then 0 else x / tb.cSrc s

/-! ### The model -/

/-- Encoder, table and `ngramOrder` (_incrNgramLM.h:151), and `weights`, `numBucketsPerOrder`, `sizeOfBucket`
(_incrJelMerNgramLM.h:91-93). -/
structure LM where
  enc : Enc
  tbl : Table
  order : Nat
  weights : List Rat
  nbuck : Nat
  bsize : Rat
  deriving DecidableEq

/-- _incrNgramLM.h:66-70 and _incrJelMerNgramLM.h:66-73 constructors. -/
def LM.new : LM := ⟨Enc.lm, Table.empty, 3, [1/2, 1/2, 1/2], 1, 0⟩

/-- _incrNgramLM.h:348-354 `existSymbol`. -/
def LM.existSymbol (m : LM) (s : Word) : Bool := (m.enc.code s).1

/-- _incrNgramLM.h:357-361 `addSymbol`. -/
def LM.addSymbol (m : LM) (s : Word) : LM := { m with enc := m.enc.addSym s }

/-- _incrNgramLM.h:364-368 `getVocabSize` (vecx_x_incr_enc.h:340-344). -/
def LM.vocabSize (m : LM) : Nat := m.enc.w2c.length

/-- _incrNgramLM.h:371-380 `stringToWordIndex`. -/
def LM.index (m : LM) (s : Word) : Nat := if (m.enc.code s).1 then (m.enc.code s).2 else unkSymbol

/-- _incrNgramLM.h:395-405 `getBosId`. -/
def LM.bosId (m : LM) : Nat := (m.enc.code bosStr).2

/-- _incrNgramLM.h:408-418 `getEosId`. -/
def LM.eosId (m : LM) : Nat := (m.enc.code eosStr).2

/-- _incrNgramLM.h:190-194 `cHist`. -/
def LM.cHist (m : LM) (s : List Nat) : Rat := m.tbl.cSrc s

/-- _incrNgramLM.h:197-202 `cNgram`. -/
def LM.cNgram (m : LM) (t : Nat) (s : List Nat) : Rat := m.tbl.cSrcTrg s t

/-- _incrNgramLM.h:205-209 `cHistStr` (_incrEncCondProbModel.h:559-566, BaseIncrEncCondProbModel.h:171-175). -/
def LM.cHistStr (m : LM) (h : List Word) : Rat :=
  if (m.enc.codes h).1 then m.tbl.cSrc (m.enc.codes h).2 else 0

/-- _incrNgramLM.h:212-217 `cNgramStr` (_incrEncCondProbModel.h:546-556, BaseIncrEncCondProbModel.h:163-168). -/
def LM.cNgramStr (m : LM) (w : Word) (h : List Word) : Rat :=
  if (m.enc.codes h).1 then
    if (m.enc.code w).1 then m.tbl.cSrcTrg (m.enc.codes h).2 (m.enc.code w).2 else 0
  else 0

/-- _incrNgramLM.h:239-245 `incrCountsOfNgram`. -/
def LM.incrCode (m : LM) (t : Nat) (s : List Nat) (c : Rat) : LM := { m with tbl := m.tbl.incr s t c }

/-- _incrNgramLM.h:225-228: the vocabulary is revised word by word. -/
def LM.addSymbols (m : LM) (ws : List Word) : LM := ws.foldl LM.addSymbol m

/-- _incrNgramLM.h:220-236 `incrCountsOfNgramStr`. -/
def LM.incrStr (m : LM) (w : Word) (h : List Word) (c : Rat) : LM :=
  let m' := m.addSymbols (w :: h)
  m'.incrCode (m'.index w) (h.map m'.index) c

/-- _incrNgramLM.h:608-612 `clear`: the table only. -/
def LM.clear (m : LM) : LM := { m with tbl := Table.empty }

/-! ### Training -/

/-- The keys of `NgramCountMap` (BaseIncrNgramLM.h:145): a word and its history. -/
abbrev Ngram := Word × List Word

/-- BaseIncrNgramLM.h:278-292 `accumNgramCounts`. -/
def accum (cm : List (Ngram × Rat)) (g : Ngram) : List (Ngram × Rat) :=
  match AMap.lk cm g with
  | some x => AMap.put cm g (x + 1)
  | none => AMap.put cm g 1

/-- BaseIncrNgramLM.h:232-243, 255-266: the history of length `j` before position `i` of the sentence; `bos` says whether
the begin of sentence symbol was already added. -/
def histLoop (s : List Word) (i : Nat) : Nat → Bool → List Word
  | 0, _ => []
  | j + 1, bos =>
    if i < j + 1 then
      if bos then histLoop s i j true else bosStr :: histLoop s i j true
    else (s[i - (j + 1)]?).toList ++ histLoop s i j bos

/-- BaseIncrNgramLM.h:244-250, 267-273: the n-gram ending in `w` at position `i`, if it has the size under
consideration. -/
def ngramAt (s : List Word) (n i : Nat) (w : Word) : List Ngram :=
  if (histLoop s i (n - 1) false).length + 1 = n then [(w, histLoop s i (n - 1) false)] else []

/-- BaseIncrNgramLM.h:225-274, one value of `n`: the n-grams ending at every word and at the end of the sentence. -/
def ngramsOf (s : List Word) (n : Nat) : List Ngram :=
  (List.range s.length).flatMap (fun i => ngramAt s n i (s.getD i [])) ++ ngramAt s n s.length eosStr

/-- BaseIncrNgramLM.h:213-275 `collectNgramCounts`: the n-grams in the order in which they are accumulated. -/
def events (order : Nat) (s : List Word) : List Ngram :=
  (bosStr, []) :: (List.range' 1 order).flatMap (ngramsOf s)

/-- BaseIncrNgramLM.h:213-275 `collectNgramCounts`. -/
def collect (order : Nat) (s : List Word) : List (Ngram × Rat) := (events order s).foldl accum []

/-- Lexicographic order of strings and vectors (`std::less`). -/
def ltList {A : Type} [DecidableEq A] (lt : A → A → Bool) : List A → List A → Bool
  | [], [] => false
  | [], _ :: _ => true
  | _ :: _, [] => false
  | a :: x, b :: y => if a = b then ltList lt x y else lt a b

def ltWord : Word → Word → Bool := ltList (fun a b => decide (a < b))

/-- Order of the keys of `NgramCountMap` (`std::pair`). -/
def ltNgram (a b : Ngram) : Bool := if a.1 = b.1 then ltList ltWord a.2 b.2 else ltWord a.1 b.1

/-- Insertion of an entry at its place. -/
def orderIns (e : Ngram × Rat) : List (Ngram × Rat) → List (Ngram × Rat)
  | [] => [e]
  | x :: r => if ltNgram e.1 x.1 then e :: x :: r else x :: orderIns e r

/-- The entries of the map in the order of iteration. -/
def inOrder (cm : List (Ngram × Rat)) : List (Ngram × Rat) := cm.foldr orderIns []

/-- BaseIncrNgramLM.h:295-304 `updateNgramInfo`. -/
def LM.update (c lb : Rat) (m : LM) (e : Ngram × Rat) : LM :=
  if m.cNgramStr e.1.1 e.1.2 + c * e.2 > lb then m.incrStr e.1.1 e.1.2 (c * e.2) else m

/-- BaseIncrNgramLM.h:175-210 `trainSentence`: false for THOT_ERROR. -/
def LM.train (m : LM) (s : List Word) (c lb : Rat) : Bool × LM :=
  if m.order = 0 then (false, m) else (true, (inOrder (collect m.order s)).foldl (LM.update c lb) m)

/-- BaseIncrNgramLM.h:307-319 `trainSentenceVec`. -/
def LM.trainVec (m : LM) (ss : List (List Word)) (c lb : Rat) : Bool × LM :=
  match ss with
  | [] => (true, m)
  | s :: ss => if (m.train s c lb).1 then (m.train s c lb).2.trainVec ss c lb else (false, (m.train s c lb).2)

/-! ### Probabilities -/

/-- _incrJelMerNgramLM.h:297-317 `getJelMerWeight`. `none`: a read outside `weights`, or a conversion of the quotient
that is not defined (`sizeOfBucket` not positive). With 0 buckets `numBucketsPerOrder-1` wraps around: no cap. -/
def LM.weight (m : LM) (s : List Nat) : Option Rat :=
  if m.nbuck = 1 then m.weights[s.length]?
  else if m.bsize ≤ 0 then none
  else
    let b := (m.cHist s / m.bsize).floor.toNat
    let b := if m.nbuck = 0 then b else min b (m.nbuck - 1)
    m.weights[s.length * m.nbuck + b]?

/-- _incrJelMerNgramLM.h:143-167 `pTrgGivenSrcRec`. -/
def LM.pRec (m : LM) : List Nat → Nat → Option Rat
  | [], t => do
    let w ← m.weight []
    some (w * m.tbl.p [] t + (1 - w) * (1 / (m.vocabSize : Rat)))
  | a :: s, t => do
    let w ← m.weight (a :: s)
    let q ← m.pRec s t
    some (w * m.tbl.p (a :: s) t + (1 - w) * q)

/-- _incrJelMerNgramLM.h:125-133: drop the leading begin of sentence symbols but one. -/
def dropBos (bos : Nat) : List Nat → List Nat
  | a :: b :: s => if a = bos ∧ b = bos then dropBos bos (b :: s) else a :: b :: s
  | s => s

/-- _incrJelMerNgramLM.h:117-140 `pTrgGivenSrc` (a history of fewer than two words is not touched). -/
def LM.p (m : LM) (s : List Nat) (t : Nat) : Option Rat :=
  if s.length ≥ 2 then m.pRec (dropBos m.bosId s) t else m.pRec s t

/-- _incrNgramLM.h:248-253 `getNgramLgProb` (_incrEncCondProbModel.h:403-407). -/
def LM.lgProb (lg : Rat → Rat) (m : LM) (w : Nat) (vu : List Nat) : Option Rat := (m.p vu w).map lg

/-- _incrNgramLM.h:256-261 `getNgramLgProbStr` (_incrEncCondProbModel.h:390-414). -/
def LM.lgProbStr (lg : Rat → Rat) (m : LM) (w : Word) (rq : List Word) : Option Rat :=
  if (m.enc.codes rq).1 ∧ (m.enc.code w).1 then m.lgProb lg (m.enc.code w).2 (m.enc.codes rq).2 else some (lg 0)

/-- _incrNgramLM.h:288-301 `getStateForBeginOfSentence`. -/
def LM.bosState (m : LM) : List Nat := List.replicate (m.order - 1) m.bosId

/-- _incrNgramLM.h:304-310 `addNextWordToState`. -/
def nextState (w : Nat) (st : List Nat) : List Nat := if st.length > 0 then st.tail ++ [w] else st

/-- _incrNgramLM.h:313-322 `getNgramLgProbGivenState`. -/
def LM.lgProbState (lg : Rat → Rat) (m : LM) (w : Nat) (st : List Nat) : Option (Rat × List Nat) :=
  (m.lgProb lg w st).map (fun lp => (lp, nextState w st))

/-- _incrNgramLM.h:336-345 `getLgProbEndGivenState`. -/
def LM.lgProbEndState (lg : Rat → Rat) (m : LM) (st : List Nat) : Option (Rat × List Nat) :=
  (m.lgProb lg m.eosId st).map (fun lp => (lp, nextState m.eosId st))

/-- BaseNgramLM.h:205-212: the words from left to right (the sentence is reversed twice). -/
def LM.scoreLoop (lg : Rat → Rat) (m : LM) : List Nat → List Nat → Rat → Option (Rat × List Nat)
  | [], st, tot => some (tot, st)
  | w :: ws, st, tot => do
    let (lp, st') ← m.lgProbState lg w st
    m.scoreLoop lg ws st' (tot + lp)

/-- BaseNgramLM.h:189-240 `getSentenceLog10Prob`; `k` is `1/M_LN10`. -/
def LM.sentence (lg : Rat → Rat) (k : Rat) (m : LM) (s : List Nat) : Option Rat := do
  let (tot, st) ← m.scoreLoop lg s m.bosState 0
  let (lp, _) ← m.lgProbEndState lg st
  some ((tot + lp) * k)

/-- BaseNgramLM.h:176-187 `getSentenceLog10ProbStr`. -/
def LM.sentenceStr (lg : Rat → Rat) (k : Rat) (m : LM) (s : List Word) : Option Rat := m.sentence lg k (s.map m.index)

/-- BaseNgramLM.h:265-295 (`perplexity`): the loop over the lines of the corpus, given as lists of words. `logp` keeps its
value from one line to the next. Result: total, number of words, number of sentences. -/
def LM.perpLoop (lg : Rat → Rat) (k : Rat) (m : LM) :
    List (List Word) → Rat → Rat × Nat × Nat → Option (Rat × Nat × Nat)
  | [], _, r => some r
  | l :: ls, logp, (tot, nw, ns) =>
    if l.length ≥ 1 then do
      let lp ← m.sentenceStr lg k l
      m.perpLoop lg k ls lp (tot + lp, nw + l.length, ns + 1)
    else m.perpLoop lg k ls logp (tot + logp, nw, ns + 1)

/-- BaseNgramLM.h:243-300 `perplexity`: total, number of words, number of sentences, and the exponent of the perplexity
(before `exp(.. * M_LN10)`). `LgProb()` is `logp0`. -/
def LM.perplexity (lg : Rat → Rat) (k logp0 : Rat) (m : LM) (lines : List (List Word)) :
    Option (Rat × Nat × Nat × Rat) :=
  (m.perpLoop lg k lines logp0 (0, 0, 0)).map
    (fun r => (r.1, r.2.1, r.2.2, -(r.1 / ((r.2.1 + r.2.2 : Nat) : Rat))))

/-! ### Saving and loading -/

/-- A line of the file of n-grams: history, word, count of the history, count of the n-gram. The text of the numbers and
the splitting of a line into fields (C41) are left out. -/
structure Line where
  hist : List Word
  word : Word
  cs : Rat
  cst : Rat
  deriving DecidableEq

/-- _incrNgramLM.h:569-589: the line for one position of the iterator; `none` when nothing is printed. (The words of
codes that the encoder cannot decode are the ones of the previous line; here the entry is skipped. It does not occur
when all codes come from the encoder.) -/
def LM.lineOf (m : LM) (e : List Nat × Rat) : Option Line :=
  if e.1.length > 0 ∧ e.2 > 0 then do
    let hs ← m.enc.decodes e.1.dropLast
    let ht ← m.enc.decode (e.1.getLastD 0)
    some ⟨hs, ht, m.tbl.cSrc e.1.dropLast, e.2⟩
  else none

/-- _incrNgramLM.h:552-593 `print`. -/
def LM.print (m : LM) : List Line :=
  (TrieVecs.collect (TrieVecs.size m.tbl.st) (TrieVecs.begin 0 m.tbl.st)).filterMap m.lineOf

/-- _incrNgramLM.h:155-162, _incrEncCondProbModel.h:200-217 `addTableEntryHigh`. -/
def LM.addEntryStr (m : LM) (l : Line) : LM :=
  let (e1, s) := m.enc.addSrc l.hist
  let e2 := e1.addSym l.word
  { m with enc := e2, tbl := m.tbl.addEntry s (e2.code l.word).2 l.cs l.cst }

/-- _incrNgramLM.h:485-488: the longest n-gram. -/
def maxOrder (f : List Line) : Nat := f.foldl (fun o l => if o < l.hist.length + 1 then l.hist.length + 1 else o) 0

/-- _incrNgramLM.h:459-515 `load_ngrams` (weights are loaded by `loadWeights` before). -/
def LM.load (m : LM) (f : List Line) : LM :=
  let m1 := f.foldl LM.addEntryStr { m with tbl := Table.empty, order := maxOrder f }
  if maxOrder f = 0 then { m1 with order := m.order } else m1

end Thot.LangModel

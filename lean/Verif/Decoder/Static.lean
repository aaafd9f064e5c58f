import Verif.Decoder.Model

/-! A discipline for the instructions of a thread, that the code of every operation follows.  All functions
look at the instructions that remain. -/

namespace Thot.Decoder

variable {M U O : Type}

/-- The mutex is held: it will be unlocked before it is locked. -/
def holds (m : Mtx) : List (Instr M U O) → Bool
  | [] => false
  | .lock m' :: c => if m' = m then false else holds m c
  | .unlock m' :: c => if m' = m then true else holds m c
  | _ :: c => holds m c

/-- The mutex of the user is held. -/
def inUser : List (Instr M U O) → Bool
  | [] => false
  | .lockUser :: _ => false
  | .unlockUser :: _ => true
  | _ :: c => inUser c

/-- The operation is counted in `non_atomic_ops_running`. -/
def counted : List (Instr M U O) → Bool
  | [] => false
  | .inc :: _ => false
  | .dec :: _ => true
  | _ :: c => counted c

def noWait : List (Instr M U O) → Bool
  | [] => true
  | .wait :: _ => false
  | _ :: c => noWait c

/-- The operation has passed `wait_on_non_atomic_op_cond`. -/
def excl (c : List (Instr M U O)) : Bool := holds .atomicOp c && holds .nonAtomic c && noWait c

/-- Order in which mutexes are locked; that of the users has rank 2. -/
def rank : Mtx → Nat
  | .atomicOp => 0
  | .nonAtomic => 1
  | .idxMap => 3
  | .preproc => 3

/-- The index of the user is used before it is looked up again. -/
def needs : List (Instr M U O) → Bool
  | [] => false
  | .act _ :: _ => true
  | .lockUser :: _ => true
  | .unlockUser :: _ => true
  | .look _ :: _ => false
  | .reset :: _ => false
  | _ :: c => needs c

/-- Nothing remains but the release of mutexes. -/
def quiet : List (Instr M U O) → Bool
  | [] => true
  | .lock _ :: c => quiet c
  | .unlock _ :: c => quiet c
  | .dec :: c => quiet c
  | _ => false

/-- Conditions on an instruction, given those that follow. -/
def cond : Instr M U O → List (Instr M U O) → Prop
  | .lock m, c => holds m c = true ∧ (∀ m', m' ≠ m → holds m' c = true → rank m' < rank m) ∧ (inUser c = true → 2 < rank m) ∧
      (m = .atomicOp → counted c = false) ∧ (m = .atomicOp ∨ m = .nonAtomic → excl c = false)
  | .unlock m, c => holds m c = false ∧ (excl (.unlock m :: c) = true → excl c = false → quiet c = true)
  | .lockUser, c => inUser c = true ∧ counted c = true ∧ (∀ m, holds m c = true → rank m < 2)
  | .unlockUser, c => inUser c = false ∧ counted c = true ∧ quiet c = true
  | .wait, c => holds .nonAtomic c = true ∧ holds .atomicOp c = true ∧ holds .idxMap c = false ∧ holds .preproc c = false ∧
      inUser c = false ∧ counted c = false ∧ needs c = false ∧ noWait c = true
  | .inc, c => holds .nonAtomic c = true ∧ counted c = true ∧ inUser c = false ∧ excl c = false ∧ needs c = false
  | .dec, c => holds .nonAtomic c = true ∧ counted c = false ∧ inUser c = false ∧ excl c = false
  | .look _, c => holds .idxMap c = true ∧ inUser c = false ∧ (counted c = true ∨ excl c = true)
  | .act f, c => (inUser c = true ∧ ∀ m x, (f m x).1 = m) ∨ (inUser c = false ∧ excl c = true)
  | .peek _, c => holds .atomicOp c = true
  | .mact _, c => excl c = true
  | .reset, c => excl c = true ∧ inUser c = false
  | .release _, _ => False

/-- All instructions satisfy the conditions. -/
def Good : List (Instr M U O) → Prop
  | [] => True
  | i :: c => cond i c ∧ Good c

theorem Good.counted {c : List (Instr M U O)} : Good c → inUser c = true → counted c = true := by
  induction c with
  | nil => simp [inUser]
  | cons i c ih =>
    rintro ⟨h1, h2⟩ h3
    cases i <;> simp_all [inUser, Decoder.counted, cond]

theorem Good.inUser_needs {c : List (Instr M U O)} : Good c → inUser c = true → needs c = true := by
  induction c with
  | nil => simp [inUser]
  | cons i c ih =>
    rintro ⟨h1, h2⟩ h3
    cases i <;> simp_all [inUser, needs, cond]

/-! The operations follow the discipline. -/

/-- What the environment of a body sees of it. -/
structure Same (c c' : List (Instr M U O)) : Prop where
  holds : ∀ m, holds m c = holds m c'
  inUser : inUser c = inUser c'
  counted : counted c = counted c'
  noWait : noWait c = noWait c'

theorem Same.excl {c c' : List (Instr M U O)} (h : Same c c') : excl c = excl c' := by
  unfold Decoder.excl; rw [h.holds, h.holds, h.noWait]

theorem Same.refl (c : List (Instr M U O)) : Same c c := ⟨fun _ => rfl, rfl, rfl, rfl⟩

theorem Same.trans {a b c : List (Instr M U O)} (h : Same a b) (h' : Same b c) : Same a c :=
  ⟨fun m => (h.holds m).trans (h'.holds m), h.inUser.trans h'.inUser, h.counted.trans h'.counted, h.noWait.trans h'.noWait⟩

theorem excl_unlock {m : Mtx} {c : List (Instr M U O)} (h1 : m ≠ .atomicOp) (h2 : m ≠ .nonAtomic) :
    excl (.unlock m :: c) = true → excl c = false → quiet c = true := by
  simp only [excl, holds, h1, h2, if_false, noWait]
  intro h h'; rw [h] at h'; simp at h'

theorem good_look (u : User) {c : List (Instr M U O)} (hc : Good c) (h1 : holds .idxMap c = false) (h2 : holds .preproc c = false)
    (h3 : inUser c = false) (h4 : counted c = true ∨ excl c = true) :
    Good (lookCode u ++ c) ∧ Same (lookCode u ++ c) c := by
  refine ⟨⟨⟨?_, ?_, ?_, ?_, ?_⟩, ⟨?_, ?_, ?_⟩, ⟨h1, excl_unlock (by simp) (by simp)⟩, hc⟩, ⟨?_, ?_, ?_, ?_⟩⟩
  · simp [holds]
  · intro m' hm h
    cases m' <;> simp_all [holds, rank]
  · simp [inUser, h3]
  · simp
  · simp
  · simp [holds]
  · simp [inUser, h3]
  · simpa [excl, holds, noWait, counted] using h4
  · intro m; cases m <;> simp [lookCode, holds, h1]
  · simp [lookCode, inUser]
  · simp [lookCode, counted]
  · simp [lookCode, noWait]

theorem good_item (u : User) (it : Item M U O) {c : List (Instr M U O)} (hc : Good c) (h1 : holds .idxMap c = false)
    (h2 : holds .preproc c = false) (h3 : inUser c = false) (h4 : excl c = true) :
    Good (itemCode u it ++ c) ∧ Same (itemCode u it ++ c) c := by
  cases it with
  | act f =>
    exact ⟨⟨Or.inr ⟨h3, h4⟩, hc⟩, ⟨fun m => by simp [itemCode, holds], by simp [itemCode, inUser], by simp [itemCode, counted],
      by simp [itemCode, noWait]⟩⟩
  | pre f =>
    refine ⟨⟨⟨?_, ?_, ?_, ?_, ?_⟩, Or.inr ⟨?_, ?_⟩, ⟨h2, excl_unlock (by simp) (by simp)⟩, hc⟩, ⟨?_, ?_, ?_, ?_⟩⟩
    · simp [holds]
    · intro m' hm h
      cases m' <;> simp_all [holds, rank]
    · simp [inUser, h3]
    · simp
    · simp
    · simp [inUser, h3]
    · simpa [excl, holds, noWait] using h4
    · intro m; cases m <;> simp [itemCode, holds, h2]
    · simp [itemCode, inUser]
    · simp [itemCode, counted]
    · simp [itemCode, noWait]
  | look => exact good_look u hc h1 h2 h3 (Or.inr h4)

theorem good_items (u : User) (l : List (Item M U O)) {c : List (Instr M U O)} (hc : Good c) (h1 : holds .idxMap c = false)
    (h2 : holds .preproc c = false) (h3 : inUser c = false) (h4 : excl c = true) :
    Good (l.flatMap (itemCode u) ++ c) ∧ Same (l.flatMap (itemCode u) ++ c) c := by
  induction l with
  | nil => exact ⟨hc, Same.refl _⟩
  | cons it l ih =>
    obtain ⟨h5, h6⟩ := ih
    rw [List.flatMap_cons, List.append_assoc]
    obtain ⟨h7, h8⟩ := good_item u it h5 ((h6.holds _).trans h1) ((h6.holds _).trans h2) (h6.inUser.trans h3) (h6.excl.trans h4)
    exact ⟨h7, h8.trans h6⟩

theorem good_uitem (it : UItem M U O) {c : List (Instr M U O)} (hc : Good c) (h1 : holds .idxMap c = false)
    (h2 : holds .preproc c = false) (h3 : inUser c = true) :
    Good (uitemCode it ++ c) ∧ Same (uitemCode it ++ c) c := by
  cases it with
  | act f =>
    exact ⟨⟨Or.inl ⟨h3, fun _ _ => rfl⟩, hc⟩, ⟨fun m => by simp [uitemCode, holds], by simp [uitemCode, inUser],
      by simp [uitemCode, counted], by simp [uitemCode, noWait]⟩⟩
  | pre f =>
    refine ⟨⟨⟨?_, ?_, ?_, ?_, ?_⟩, Or.inl ⟨?_, fun _ _ => rfl⟩, ⟨h2, excl_unlock (by simp) (by simp)⟩, hc⟩, ⟨?_, ?_, ?_, ?_⟩⟩
    · simp [holds]
    · intro m' hm h
      cases m' <;> simp_all [holds, rank]
    · simp [inUser, rank]
    · simp
    · simp
    · simp [inUser, h3]
    · intro m; cases m <;> simp [uitemCode, holds, h2]
    · simp [uitemCode, inUser]
    · simp [uitemCode, counted]
    · simp [uitemCode, noWait]

theorem good_uitems (l : List (UItem M U O)) {c : List (Instr M U O)} (hc : Good c) (h1 : holds .idxMap c = false)
    (h2 : holds .preproc c = false) (h3 : inUser c = true) :
    Good (l.flatMap uitemCode ++ c) ∧ Same (l.flatMap uitemCode ++ c) c := by
  induction l with
  | nil => exact ⟨hc, Same.refl _⟩
  | cons it l ih =>
    obtain ⟨h5, h6⟩ := ih
    rw [List.flatMap_cons, List.append_assoc]
    obtain ⟨h7, h8⟩ := good_uitem it h5 ((h6.holds _).trans h1) ((h6.holds _).trans h2) (h6.inUser.trans h3)
    exact ⟨h7, h8.trans h6⟩

theorem good_macts (l : List (M → M)) {c : List (Instr M U O)} (hc : Good c) (h4 : excl c = true) :
    Good (l.map .mact ++ c) ∧ Same (l.map .mact ++ c) c := by
  induction l with
  | nil => exact ⟨hc, Same.refl _⟩
  | cons f l ih =>
    obtain ⟨h5, h6⟩ := ih
    rw [List.map_cons, List.cons_append]
    refine ⟨⟨h6.excl.trans h4, h5⟩, Same.trans ?_ h6⟩
    exact ⟨fun m => by simp [holds], by simp [inUser], by simp [counted], by simp [noWait]⟩

theorem needs_macts (l : List (M → M)) {c : List (Instr M U O)} (h : needs c = false) : needs (l.map .mact ++ c) = false := by
  induction l with
  | nil => exact h
  | cons f l ih => exact ih

theorem good_peeks (l : List (M → O)) {c : List (Instr M U O)} (hc : Good c) (h4 : holds .atomicOp c = true) :
    Good (l.map .peek ++ c) ∧ Same (l.map .peek ++ c) c := by
  induction l with
  | nil => exact ⟨hc, Same.refl _⟩
  | cons f l ih =>
    obtain ⟨h5, h6⟩ := ih
    rw [List.map_cons, List.cons_append]
    refine ⟨⟨(h6.holds _).trans h4, h5⟩, Same.trans ?_ h6⟩
    exact ⟨fun m => by simp [holds], by simp [inUser], by simp [counted], by simp [noWait]⟩

/-- The operations other than a failing `initUserPars` and `release_user_data`. -/
def Op.Safe : Op M U O → Prop
  | .initError .. => False
  | .release _ => False
  | _ => True

/-- The prologue of the atomic operations. -/
theorem good_enter {c : List (Instr M U O)} (hc : Good c) (h1 : holds .atomicOp c = true) (h2 : holds .nonAtomic c = true)
    (h3 : holds .idxMap c = false) (h4 : holds .preproc c = false) (h5 : inUser c = false) (h6 : counted c = false)
    (h7 : needs c = false) (h8 : noWait c = true) :
    Good ([.lock .atomicOp, .lock .nonAtomic, .wait] ++ c) ∧
      (∀ m, holds m ([.lock .atomicOp, .lock .nonAtomic, .wait] ++ c) = false) ∧
      inUser ([.lock .atomicOp, .lock .nonAtomic, .wait] ++ c) = false ∧
      counted ([.lock .atomicOp, .lock .nonAtomic, .wait] ++ c) = false := by
  refine ⟨⟨⟨?_, ?_, ?_, ?_, ?_⟩, ⟨?_, ?_, ?_, ?_, ?_⟩, ⟨h2, h1, h3, h4, h5, h6, h7, h8⟩, hc⟩, ?_, ?_, ?_⟩
  · simp [holds, h1]
  · intro m' hm h; cases m' <;> simp_all [holds]
  · simp [inUser, h5]
  · simp [counted, h6]
  · simp [excl, noWait]
  · simp [holds, h2]
  · intro m' hm h; cases m' <;> simp_all [holds, rank]
  · simp [inUser, h5]
  · simp
  · simp [excl, noWait]
  · intro m; cases m <;> simp [holds, h3, h4]
  · simp [inUser, h5]
  · simp [counted, h6]

theorem good_code (op : Op M U O) (hs : op.Safe) :
    Good (code op) ∧ (∀ m, holds m (code op) = false) ∧ inUser (code op) = false ∧ counted (code op) = false := by
  have ht : Good ([.unlock .nonAtomic, .unlock .atomicOp] : List (Instr M U O)) := by simp [Good, cond, holds, quiet]
  cases op with
  | atomic u body =>
    obtain ⟨h1, h2⟩ := good_items u body ht rfl rfl rfl rfl
    obtain ⟨h3, h4⟩ := good_look u h1 (by rw [h2.holds]; rfl) (by rw [h2.holds]; rfl) (by rw [h2.inUser]; rfl)
      (Or.inr (by rw [h2.excl]; rfl))
    have h5 := h4.trans h2
    have := good_enter h3 (by rw [h5.holds]; rfl) (by rw [h5.holds]; rfl) (by rw [h5.holds]; rfl) (by rw [h5.holds]; rfl)
      (by rw [h5.inUser]; rfl) (by rw [h5.counted]; rfl) rfl (by rw [h5.noWait]; rfl)
    simpa only [code, List.append_assoc] using this
  | initError u body => exact hs.elim
  | clear body =>
    have ht' : Good ([.reset, .unlock .nonAtomic, .unlock .atomicOp] : List (Instr M U O)) := ⟨⟨rfl, rfl⟩, ht⟩
    obtain ⟨h1, h5⟩ := good_macts body ht' rfl
    have := good_enter h1 (by rw [h5.holds]; rfl) (by rw [h5.holds]; rfl) (by rw [h5.holds]; rfl) (by rw [h5.holds]; rfl)
      (by rw [h5.inUser]; rfl) (by rw [h5.counted]; rfl) (needs_macts _ rfl) (by rw [h5.noWait]; rfl)
    simpa only [code, List.append_assoc] using this
  | print body =>
    have ht' : Good ([.unlock .atomicOp] : List (Instr M U O)) := by simp [Good, cond, holds, quiet]
    obtain ⟨h1, h5⟩ := good_peeks body ht' rfl
    refine ⟨⟨⟨?_, ?_, ?_, ?_, ?_⟩, h1⟩, ?_, ?_, ?_⟩
    · exact (h5.holds _).trans rfl
    · intro m' hm h
      have := (h5.holds m').symm.trans h
      cases m' <;> simp_all [holds]
    · intro h
      have := h5.inUser.symm.trans h
      simp [inUser] at this
    · intro _; exact h5.counted.trans rfl
    · intro _; exact h5.excl.trans rfl
    · intro m
      cases m
      · rfl
      all_goals exact (h5.holds _).trans rfl
    · exact h5.inUser.trans rfl
    · exact h5.counted.trans rfl
  | session u body =>
    have ht' : Good ([.unlockUser, .lock .nonAtomic, .dec, .unlock .nonAtomic] : List (Instr M U O)) := by
      simp [Good, cond, holds, inUser, counted, excl, noWait, quiet]
      intro m h1 h2; cases m <;> simp_all
    obtain ⟨h1, h5⟩ := good_uitems body ht' rfl rfl rfl
    have h6 : Good (.lockUser :: (body.flatMap uitemCode ++ [.unlockUser, .lock .nonAtomic, .dec, .unlock .nonAtomic])) := by
      refine ⟨⟨h5.inUser.trans rfl, h5.counted.trans rfl, ?_⟩, h1⟩
      intro m hm
      have := (h5.holds m).symm.trans hm
      cases m <;> simp_all [holds]
    obtain ⟨h7, h8⟩ := good_look u h6 ((h5.holds _).trans rfl) ((h5.holds _).trans rfl) rfl
      (Or.inl (h5.counted.trans rfl))
    have h9 : ∀ m, holds m (lookCode u ++ .lockUser :: (body.flatMap uitemCode ++ [.unlockUser, .lock .nonAtomic, .dec, .unlock .nonAtomic]))
        = false := by
      intro m
      rw [h8.holds]
      refine (h5.holds m).trans ?_
      cases m <;> rfl
    have h10 : counted (lookCode u ++ .lockUser :: (body.flatMap uitemCode ++ [.unlockUser, .lock .nonAtomic, .dec, .unlock .nonAtomic]))
        = true := by rw [h8.counted]; exact h5.counted.trans rfl
    have h11 : inUser (lookCode u ++ .lockUser :: (body.flatMap uitemCode ++ [.unlockUser, .lock .nonAtomic, .dec, .unlock .nonAtomic]))
        = false := by rw [h8.inUser]; rfl
    have : Good ([.lock .nonAtomic, .inc, .unlock .nonAtomic] ++ (lookCode u ++ .lockUser ::
        (body.flatMap uitemCode ++ [.unlockUser, .lock .nonAtomic, .dec, .unlock .nonAtomic]))) := by
      refine ⟨⟨?_, ?_, ?_, ?_, ?_⟩, ⟨?_, ?_, ?_, ?_, rfl⟩, ⟨h9 _, ?_⟩, h7⟩
      · simp [holds]
      · intro m' hm h
        simp [holds, hm.symm, h9] at h
      · simp [inUser, h11]
      · simp
      · simp [excl, holds, h9]
      · simp [holds]
      · simpa [counted] using h10
      · simpa [inUser] using h11
      · simp [excl, holds, h9]
      · simp [excl, holds, h9]
    refine ⟨by simpa only [code, List.append_assoc, List.cons_append, List.nil_append] using this, ?_, ?_, rfl⟩
    · intro m
      have := h9 m
      simp only [code, List.append_assoc, List.cons_append, List.nil_append] at this ⊢
      by_cases hm : Mtx.nonAtomic = m
      · simp [holds, hm]
      · simp only [holds, hm, if_false]; exact this
    · simpa only [code, List.append_assoc, List.cons_append, List.nil_append, inUser] using h11
  | release u => exact hs.elim

end Thot.Decoder

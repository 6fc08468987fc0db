import Verif.Flow.ConcatTool
import Verif.Props.Output
import Verif.Props.SetFiles
import Verif.Props.SameOutput

/-!
C100: the program that joins files.
-/

namespace Verif.ConcatTool
open Verif.Options (getopt)
open Verif.Files Verif.Params Verif.Rules Verif.Flow Verif.FP Verif.Endian
open Verif.Life (Name isSegy)

/-! ### The kinds of files -/

/-- The order of pairs. -/
def kindLt (a b : Kind) : Prop := a.1 < b.1 ∨ (a.1 = b.1 ∧ a.2 < b.2)

theorem kindLt_trans {a b c : Kind} (h : kindLt a b) (h' : kindLt b c) : kindLt a c := by
  unfold kindLt at *
  rcases h with h | ⟨h, g⟩ <;> rcases h' with h' | ⟨h', g'⟩
  · exact Or.inl (by omega)
  · exact Or.inl (by omega)
  · exact Or.inl (by omega)
  · exact Or.inr ⟨by omega, lt_trans g g'⟩

theorem kindLt_irrefl (a : Kind) : ¬ kindLt a a := by
  unfold kindLt
  rintro (h | ⟨_, h⟩)
  · omega
  · exact lt_irrefl _ h

theorem kindLt_of {a b : Kind} (h1 : a ≠ b) (h2 : ¬ kindLt a b) : kindLt b a := by
  unfold kindLt at *
  rw [not_or, not_and] at h2
  rcases Nat.lt_trichotomy a.1 b.1 with h | h | h
  · exact absurd h h2.1
  · refine Or.inr ⟨h.symm, lt_of_le_of_ne (not_lt.1 (h2.2 h)) fun e => h1 (Prod.ext h e.symm)⟩
  · exact Or.inl h

theorem mem_insertKind (k : Kind) (l : List Kind) (x : Kind) : x ∈ insertKind k l ↔ x = k ∨ x ∈ l := by
  induction l with
  | nil => simp [insertKind]
  | cons y l ih =>
    unfold insertKind
    split
    · rename_i h
      simp only [List.mem_cons]
      rw [h]; tauto
    · split
      · simp
      · simp only [List.mem_cons, ih]; tauto

theorem insertKind_sorted (k : Kind) (l : List Kind) (h : l.Pairwise kindLt) : (insertKind k l).Pairwise kindLt := by
  induction l with
  | nil => simp [insertKind]
  | cons y l ih =>
    have h' := List.pairwise_cons.1 h
    unfold insertKind
    split
    · exact h
    · rename_i hne
      split
      · rename_i hlt
        refine List.pairwise_cons.2 ⟨?_, h⟩
        intro z hz
        rcases List.mem_cons.1 hz with rfl | hz
        · exact hlt
        · exact kindLt_trans hlt (h'.1 z hz)
      · rename_i hlt
        refine List.pairwise_cons.2 ⟨?_, ih h'.2⟩
        intro z hz
        rcases (mem_insertKind k l z).1 hz with rfl | hz
        · exact kindLt_of (fun e => hne e.symm) hlt
        · exact h'.1 z hz

theorem kinds_spec (infos : List Info) : (kinds infos).Pairwise kindLt ∧ ∀ k, k ∈ kinds infos ↔ ∃ i ∈ infos, kind i = k := by
  have h : ∀ (l : List Info) (s : List Kind), s.Pairwise kindLt → (l.foldl (fun l i => insertKind (kind i) l) s).Pairwise kindLt ∧
      ∀ k, k ∈ l.foldl (fun l i => insertKind (kind i) l) s ↔ k ∈ s ∨ ∃ i ∈ l, kind i = k := by
    intro l
    induction l with
    | nil => intro s hs; exact ⟨hs, by simp⟩
    | cons i l ih =>
      intro s hs
      obtain ⟨h1, h2⟩ := ih _ (insertKind_sorted (kind i) s hs)
      refine ⟨h1, fun k => ?_⟩
      rw [List.foldl_cons, h2, mem_insertKind]
      simp only [List.mem_cons, exists_eq_or_imp]
      constructor
      · rintro ((rfl | h) | h)
        · exact Or.inr (Or.inl rfl)
        · exact Or.inl h
        · exact Or.inr (Or.inr h)
      · rintro (h | rfl | h)
        · exact Or.inl (Or.inr h)
        · exact Or.inl (Or.inl rfl)
        · exact Or.inr h
  obtain ⟨h1, h2⟩ := h infos [] List.Pairwise.nil
  exact ⟨h1, fun k => by rw [kinds, h2]; simp⟩

theorem kinds_nodup (infos : List Info) : (kinds infos).Nodup :=
  (kinds_spec infos).1.imp fun {a b} h (e : a = b) => kindLt_irrefl _ (e ▸ h)

/-! ### Names -/

/-- The interval of a header field is printed as it is: in microseconds, with six digits. -/
theorem fixed6_inc (iv : BitVec 16) (h : 1 ≤ iv.toInt) :
    fixed6 (rnd (micro * iv.toInt)) = '0' :: '.' :: sixDigits iv.toInt.toNat := by
  have hle : iv.toInt ≤ 32767 := by have := BitVec.toInt_lt (x := iv); omega
  obtain ⟨n1, n2⟩ := near_micro (by exact_mod_cast h) (by exact_mod_cast hle) (read_inc_near iv.toInt h)
  have hpos : 0 < rnd (micro * (iv.toInt : ℚ)) := lt_of_lt_of_le (by norm_num) n1
  generalize rnd (micro * (iv.toInt : ℚ)) = x at *
  have e : roundEven (|x| * 10 ^ 6) = iv.toInt := by
    rw [abs_of_pos hpos]
    have h1 := roundEven_err (x * 10 ^ 6)
    rw [abs_le] at h1 n2
    generalize roundEven (x * 10 ^ 6) = n at *
    generalize x * 10 ^ 6 = y at *
    have h3 : (n : ℚ) - iv.toInt < 1 := by linarith [h1.2, n2.2]
    have h4 : -1 < (n : ℚ) - iv.toInt := by linarith [h1.1, n2.1]
    have h5 : n - iv.toInt < 1 := by exact_mod_cast h3
    have h6 : -1 < n - iv.toInt := by exact_mod_cast h4
    omega
  unfold fixed6
  rw [e, if_neg (not_lt.2 hpos.le)]
  have hd : iv.toInt.toNat / 10 ^ 6 = 0 := Nat.div_eq_of_lt (by omega)
  have hm : iv.toInt.toNat % 10 ^ 6 = iv.toInt.toNat := Nat.mod_eq_of_lt (by omega)
  simp only [hd, hm]
  rfl

theorem zeros_value (k : Nat) (l : List Char) : Nat.ofDigitChars 10 (List.replicate k '0' ++ l) 0 = Nat.ofDigitChars 10 l 0 := by
  induction k with
  | zero => rfl
  | succ k ih => rw [List.replicate_succ, List.cons_append, Nat.ofDigitChars_cons]; exact ih

theorem sixDigits_inj {a b : Nat} (h : sixDigits a = sixDigits b) : a = b := by
  unfold sixDigits at h
  have := congrArg (fun l => Nat.ofDigitChars 10 l 0) h
  simp only [zeros_value] at this
  unfold decimal at this
  rw [Nat.toList_repr, Nat.toList_repr] at this
  simpa [Nat.ofDigitChars_ten_toDigits] using this

/-- **C100** (the names). The interval in the name of an output is that of the header field: six digits of microseconds. -/
theorem C100_interval (iv : BitVec 16) (h : 1 ≤ iv.toInt) :
    ∃ ds, fixed6 (rnd (micro * iv.toInt)) = "0.".toList ++ ds ∧ ds.length = 6 ∧ (∀ c ∈ ds, c.isDigit = true) ∧
      (Nat.ofDigitChars 10 ds 0 : ℤ) = iv.toInt := by
  have hle : iv.toInt ≤ 32767 := by have := BitVec.toInt_lt (x := iv); omega
  refine ⟨sixDigits iv.toInt.toNat, fixed6_inc iv h, ?_, ?_, ?_⟩
  · have hlen : (decimal iv.toInt.toNat).length ≤ 6 := by
      unfold decimal
      rw [Nat.toList_repr]
      exact (Nat.length_toDigits_le_iff (by norm_num) (by norm_num)).2 (by omega)
    unfold sixDigits
    rw [List.length_append, List.length_replicate]
    omega
  · intro c hc
    unfold sixDigits at hc
    rcases List.mem_append.1 hc with hc | hc
    · rw [List.eq_of_mem_replicate hc]; rfl
    · unfold decimal at hc
      rw [Nat.toList_repr] at hc
      exact Nat.isDigit_of_mem_toDigits (by norm_num) (by norm_num) hc
  · unfold sixDigits decimal
    rw [zeros_value, Nat.toList_repr, Nat.ofDigitChars_ten_toDigits]
    omega

/-- Four milliseconds. -/
example : fixed6 (rnd (micro * (4000#16).toInt)) = "0.004000".toList := by
  rw [fixed6_inc _ (by decide)]
  decide

/-- An interval that a header can give. -/
def Given (x : ℚ) : Prop := ∃ iv : BitVec 16, 1 ≤ iv.toInt ∧ x = rnd (micro * iv.toInt)

theorem fixed6_inj {x y : ℚ} (hx : Given x) (hy : Given y) (h : fixed6 x = fixed6 y) : x = y := by
  obtain ⟨a, ha, rfl⟩ := hx
  obtain ⟨b, hb, rfl⟩ := hy
  rw [fixed6_inc a ha, fixed6_inc b hb] at h
  have := sixDigits_inj (List.cons.inj (List.cons.inj h).2).2
  have e : a.toInt = b.toInt := by omega
  rw [e]

theorem outName_inj {o : Name} {k k' : Kind} {n n' : Nat} (hk : Given k.2) (hk' : Given k'.2)
    (h : outName o k n = outName o k' n') : (n = 1 ∧ n' = 1) ∨ k = k' := by
  unfold outName at h
  have hform : ∀ k : Kind, o ++ decimal k.1 ++ ['_'] ++ fixed6 k.2 ++ ".segy".toList
      = o ++ (decimal k.1 ++ '_' :: (fixed6 k.2 ++ ".segy".toList)) := fun k => by simp
  rw [hform, hform] at h
  split at h <;> split at h
  · exact Or.inl ⟨by assumption, by assumption⟩
  · have := congrArg List.length (List.append_cancel_left h)
    rw [segy_toList] at this
    simp at this
    omega
  · have := congrArg List.length (List.append_cancel_left h)
    rw [segy_toList] at this
    simp at this
    omega
  · obtain ⟨h2, h3⟩ := split_at decimal_digit decimal_digit (List.append_cancel_left h)
    exact Or.inr (Prod.ext (decimal_inj h2) (fixed6_inj hk hk' (List.append_cancel_right h3)))

/-! ### Writing -/

variable {F : Type}

theorem writeAll_spec (ops : FloatOps F) (cv : Conv F (BitVec 64)) (zero : F) (idx : List Nat → List Nat)
    (sched : List Chunk → List Chunk) (P : Nat) (code : ℚ → Int) (outfix : Name) (msg : List Nat) (ins : List Name)
    (ds : List Disk) (infos : List Info) (name : Kind → Name)
    (hname : ∀ k, name k = outName outfix k (infos.filter fun i => kind i = k).length) (Good : Kind → Disk → Prop) :
    ∀ (ks : List Kind), (∀ k ∈ ks, name k ∉ ins ∧ ∀ out, ∃ out',
        concatenate ops cv zero idx sched P code msg ds (k.1, code k.2) out = .ok out' ∧ Good k out') →
      (ks.map name).Nodup → ∀ w : World, ∃ w', writeAll ops cv zero idx sched P code outfix msg ins ds infos ks w = .ok w' ∧
        (∀ k ∈ ks, ∃ d, w' (name k) = some d ∧ Good k d) ∧ ∀ x, x ∉ ks.map name → w' x = w x := by
  intro ks
  induction ks with
  | nil => intro _ _ w; exact ⟨w, rfl, by simp, fun _ _ => rfl⟩
  | cons k ks ih =>
    intro h hnd w
    rw [List.map_cons, List.nodup_cons] at hnd
    obtain ⟨h1, h2⟩ := h k (by simp)
    obtain ⟨out, e, g⟩ := h2 ((w (name k)).getD ⟨0, fun _ => 0#8⟩)
    obtain ⟨w', e', g', o'⟩ := ih (fun j hj => h j (by simp [hj])) hnd.2 (Function.update w (name k) (some out))
    refine ⟨w', ?_, ?_, ?_⟩
    · unfold writeAll
      simp only [← hname]
      rw [if_neg h1, e, Res.ok_bind, e']
    · intro j hj
      rcases List.mem_cons.1 hj with rfl | hj
      · exact ⟨out, by rw [o' _ hnd.1, Function.update_self], g⟩
      · exact g' j hj
    · intro x hx
      rw [List.map_cons, List.mem_cons, not_or] at hx
      rw [o' x hx.2, Function.update_of_ne hx.1]

/-! ### C100 -/

/-- The files with samples and interval of file `n`, in order. -/
def alike (info : Name → Info) (ins : List Name) (n : Name) : List Name :=
  ins.filter fun m => (info m).ns = (info n).ns ∧ (info m).inc = (info n).inc

/-- The number of their traces. -/
def total (info : Name → Info) (ins : List Name) (n : Name) : Nat := ((alike info ins n).map fun m => (info m).nt).sum

/-- Where the traces of file `n` are to be found. -/
def target (prefix_ : Name) (info : Name → Info) (ins : List Name) (n : Name) : Name :=
  if (alike info ins n).length = 1 then prefix_ ++ ".segy".toList
  else prefix_ ++ decimal (info n).ns ++ ['_'] ++ fixed6 (info n).inc ++ ".segy".toList

/-- Files that can be opened, with samples, a positive interval and numbers that are not in the IBM format. -/
structure Fit (w : World) (ins : List Name) (disk : Name → Disk) (info : Name → Info) : Prop where
  there : ∀ n ∈ ins, w n = some (disk n)
  opens : ∀ n ∈ ins, openRead (disk n) = .ok (info n)
  size : ∀ n ∈ ins, (disk n).size < 2 ^ 63
  few : ∀ n ∈ ins, 0 < (info n).ns ∧ (info n).ns ≤ 32767
  pos : ∀ n ∈ ins, 0 < (info n).inc
  ieee : ∀ n ∈ ins, (info n).format ≠ 1#16
  fits : ∀ n ∈ ins, 3600 + total info ins n * (240 + 4 * (info n).ns) < 2 ^ 63

variable {w : World} {ins : List Name} {disk : Name → Disk} {info : Name → Info}

theorem Fit.given (h : Fit w ins disk info) {n : Name} (hn : n ∈ ins) : Given (info n).inc := by
  obtain ⟨_, iv, e⟩ := openRead_of (h.opens n hn) (h.size n hn) (h.few n hn).1 (h.few n hn).2
  obtain ⟨_, _, i, _⟩ := inc_again (iv := iv) (by rw [← e]; exact h.pos n hn)
  exact ⟨iv, i, e⟩

theorem Fit.collected (h : Fit w ins disk info) :
    openAll w ins = .ok (ins.map disk) ∧ collect openRead (ins.map disk) = .ok (ins.map info) := by
  refine ⟨?_, ?_⟩
  · unfold openAll
    exact collect_ok fun n hn => by rw [h.there n hn]
  · have : ∀ l : List Name, (∀ n ∈ l, n ∈ ins) → collect openRead (l.map disk) = .ok (l.map info) := by
      intro l
      induction l with
      | nil => intro _; rfl
      | cons a l ih =>
        intro hl
        rw [List.map_cons]
        unfold collect
        rw [h.opens a (hl a (by simp)), Res.ok_bind, ih fun n hn => hl n (by simp [hn])]
        rfl
    exact this ins fun _ h => h

/-- What the readers of the files know. -/
def infoD (d : Disk) : Info := okOr ⟨0, 0, 0, 0#16, []⟩ (openRead d)

theorem Fit.infoD (h : Fit w ins disk info) {n : Name} (hn : n ∈ ins) : infoD (disk n) = info n := by
  unfold ConcatTool.infoD
  rw [h.opens n hn]
  rfl

theorem Fit.group (h : Fit w ins disk info) (n : Name) :
    (ins.map disk).filter (fun d => (ConcatTool.infoD d).ns = (info n).ns ∧ (ConcatTool.infoD d).inc = (info n).inc)
      = (alike info ins n).map disk := by
  unfold alike
  rw [List.filter_map]
  congr 1
  apply List.filter_congr
  intro m hm
  simp only [Function.comp, h.infoD hm]

theorem Fit.sum (h : Fit w ins disk info) (n : Name) :
    (((alike info ins n).map disk).map fun d => (ConcatTool.infoD d).nt).sum = total info ins n := by
  unfold total
  rw [List.map_map]
  congr 1
  apply List.map_congr_left
  intro m hm
  simp only [Function.comp, h.infoD (List.mem_of_mem_filter hm)]

theorem self_alike {n : Name} (hn : n ∈ ins) : n ∈ alike info ins n :=
  List.mem_filter.2 ⟨hn, by simp⟩

/-- What the output with the traces of file `n` is to be. -/
structure Joined (msg : List Nat) (ins : List Name) (disk : Name → Disk) (info : Name → Info) (n : Name) (d : Disk) : Prop where
  opens : openRead d = .ok ⟨(info n).ns, total info ins n, (info n).inc, 5#16, CharEnc.readText (shown msg)⟩
  size : d.size = 3600 + total info ins n * (240 + 4 * (info n).ns)
  records : records d (info n).ns (total info ins n) =
    (alike info ins n).flatMap fun m => records (disk m) (info m).ns (info m).nt

theorem group_out (ops : FloatOps F) (cv : Conv F (BitVec 64)) (hcv : ∀ v, cv.toT v = v) (zero : F)
    (idx : List Nat → List Nat) (hidx : IsSortIndex idx) (sched : List Chunk → List Chunk) (hs : ∀ l, (sched l).Perm l)
    (P : Nat) (hP : 0 < P) (code : ℚ → Int) (hcode : Function.Injective code) (msg : List Nat) (hmsg : ∀ x ∈ msg, x < 256)
    (h : Fit w ins disk info) {n : Name} (hn : n ∈ ins) (out : Disk) :
    ∃ out', concatenate ops cv zero idx sched P code msg (ins.map disk) ((info n).ns, code (info n).inc) out = .ok out' ∧
      Joined msg ins disk info n out' := by
  obtain ⟨out', e1, e2, e3, e4⟩ := C78_concatenate_partial ops cv hcv zero idx hidx sched hs P hP code hcode msg hmsg (ins.map disk) infoD
    (by intro d hd
        obtain ⟨m, hm, rfl⟩ := List.mem_map.1 hd
        rw [h.infoD hm]; exact h.opens m hm)
    (by intro d hd
        obtain ⟨m, hm, rfl⟩ := List.mem_map.1 hd
        exact h.size m hm)
    (info n).ns (h.few n hn).1 (h.few n hn).2 (info n).inc (h.pos n hn) ((alike info ins n).map disk) (h.group n).symm
    (by intro e
        rw [List.map_eq_nil_iff] at e
        have := self_alike (info := info) hn
        rw [e] at this
        simp at this)
    (by intro d hd
        obtain ⟨m, hm, rfl⟩ := List.mem_map.1 hd
        have hm := List.mem_of_mem_filter hm
        rw [h.infoD hm]; exact h.ieee m hm)
    (total info ins n) (h.sum n).symm (h.fits n hn) out
  refine ⟨out', e1, e2, e3, ?_⟩
  rw [e4, List.flatMap_map]
  apply List.flatMap_congr
  intro m hm
  rw [h.infoD (List.mem_of_mem_filter hm)]
  have := (List.mem_filter.1 hm).2
  rw [decide_eq_true_eq] at this
  rw [this.1]

/-- The bytes of the output do not depend on the number of processes, the order of the writes or what was there before. -/
theorem group_bytes (ops : FloatOps F) (cv : Conv F (BitVec 64)) (hcv : ∀ v, cv.toT v = v) (zero : F)
    (idx idx' : List Nat → List Nat) (hidx : IsSortIndex idx) (hidx' : IsSortIndex idx')
    (sched sched' : List Chunk → List Chunk) (hs : ∀ l, (sched l).Perm l) (hs' : ∀ l, (sched' l).Perm l)
    (P P' : Nat) (hP : 0 < P) (hP' : 0 < P') (code : ℚ → Int) (hcode : Function.Injective code) (msg : List Nat)
    (hmsg : ∀ x ∈ msg, x < 256) (h : Fit w ins disk info) {n : Name} (hn : n ∈ ins) (out out' a b : Disk)
    (ha : concatenate ops cv zero idx sched P code msg (ins.map disk) ((info n).ns, code (info n).inc) out = .ok a)
    (hb : concatenate ops cv zero idx' sched' P' code msg (ins.map disk) ((info n).ns, code (info n).inc) out' = .ok b) :
    content a = content b := by
  let _ : Mul Flt := ⟨fun x _ => x⟩
  refine (C91_operations_partial (K := ℚ) (fun _ => 0) (fun _ => 0) ops cv hcv zero idx idx' hidx hidx' sched sched' hs hs' P P' hP hP' code hcode msg hmsg
    (ins.map disk) infoD
    (by intro d hd
        obtain ⟨m, hm, rfl⟩ := List.mem_map.1 hd
        rw [h.infoD hm]; exact h.opens m hm)
    (by intro d hd
        obtain ⟨m, hm, rfl⟩ := List.mem_map.1 hd
        exact h.size m hm)
    (info n).ns (h.few n hn).1 (h.few n hn).2 (info n).inc (h.pos n hn) ((alike info ins n).map disk) (h.group n).symm
    (by intro e
        rw [List.map_eq_nil_iff] at e
        have := self_alike (info := info) hn
        rw [e] at this
        simp at this)
    (total info ins n) (h.sum n).symm (h.fits n hn) [] (fun d _ k _ => ⟨_, rfl⟩) out out').1 a b ha hb

theorem count_alike (n : Name) :
    ((ins.map info).filter fun i => kind i = kind (info n)).length = (alike info ins n).length := by
  rw [List.filter_map, List.length_map]
  unfold alike
  congr 1
  apply List.filter_congr
  intro m _
  simp [Function.comp, kind, Prod.ext_iff]

theorem target_eq (o : Name) (n : Name) :
    target o info ins n = outName o (kind (info n)) ((ins.map info).filter fun i => kind i = kind (info n)).length := by
  rw [count_alike]
  rfl

theorem mem_kinds {ins : List Name} {info : Name → Info} (k : Kind) : k ∈ kinds (ins.map info) ↔ ∃ n ∈ ins, kind (info n) = k := by
  rw [(kinds_spec _).2]
  simp

/-- Both passes of writing. -/
theorem passes (ops : FloatOps F) (cv : Conv F (BitVec 64)) (zero : F) (idx : List Nat → List Nat)
    (sched : List Chunk → List Chunk) (P : Nat) (code : ℚ → Int) (o : Name) (msg : List Nat) (h : Fit w ins disk info)
    (hone : ∀ n ∈ ins, ∀ m ∈ ins, (alike info ins n).length = 1 → (alike info ins m).length = 1 → n = m)
    (hno : ∀ n ∈ ins, target o info ins n ∉ ins) (Good : Kind → Disk → Prop)
    (hgood : ∀ n ∈ ins, ∀ out, ∃ out', concatenate ops cv zero idx sched P code msg (ins.map disk)
      ((info n).ns, code (info n).inc) out = .ok out' ∧ Good (kind (info n)) out') :
    ∃ w', (writeAll ops cv zero idx sched P code o msg ins (ins.map disk) (ins.map info) (kinds (ins.map info)) w >>=
        writeAll ops cv zero idx sched P code o msg ins (ins.map disk) (ins.map info) (kinds (ins.map info))) = .ok w' ∧
      (∀ n ∈ ins, ∃ d, w' (target o info ins n) = some d ∧ Good (kind (info n)) d) ∧
      ∀ x, (∀ n ∈ ins, x ≠ target o info ins n) → w' x = w x := by
  let name : Kind → Name := fun k => outName o k ((ins.map info).filter fun i => kind i = k).length
  have hk : ∀ k ∈ kinds (ins.map info), name k ∉ ins ∧ ∀ out, ∃ out',
      concatenate ops cv zero idx sched P code msg (ins.map disk) (k.1, code k.2) out = .ok out' ∧ Good k out' := by
    intro k hk
    obtain ⟨n, hn, rfl⟩ := (mem_kinds k).1 hk
    refine ⟨?_, hgood n hn⟩
    have := hno n hn
    rwa [target_eq] at this
  have hnd : ((kinds (ins.map info)).map name).Nodup := by
    refine List.Nodup.map_on ?_ (kinds_nodup _)
    intro k hk k' hk' e
    obtain ⟨n, hn, rfl⟩ := (mem_kinds k).1 hk
    obtain ⟨m, hm, rfl⟩ := (mem_kinds k').1 hk'
    rcases outName_inj (h.given hn) (h.given hm) e with ⟨e1, e2⟩ | e
    · rw [count_alike] at e1 e2
      rw [hone n hn m hm e1 e2]
    · exact e
  obtain ⟨w1, e1, -, o1⟩ := writeAll_spec ops cv zero idx sched P code o msg ins (ins.map disk) (ins.map info) name (fun _ => rfl) Good _ hk hnd w
  obtain ⟨w2, e2, g2, o2⟩ := writeAll_spec ops cv zero idx sched P code o msg ins (ins.map disk) (ins.map info) name (fun _ => rfl) Good _ hk hnd w1
  refine ⟨w2, by rw [e1, Res.ok_bind, e2], ?_, ?_⟩
  · intro n hn
    rw [target_eq]
    exact g2 _ ((mem_kinds _).2 ⟨n, hn, rfl⟩)
  · intro x hx
    have : x ∉ (kinds (ins.map info)).map name := by
      intro hx'
      obtain ⟨k, hk, rfl⟩ := List.mem_map.1 hx'
      obtain ⟨n, hn, rfl⟩ := (mem_kinds k).1 hk
      exact hx n hn (target_eq o n).symm
    rw [o2 x this, o1 x this]

theorem main_eq (ops : FloatOps F) (cv : Conv F (BitVec 64)) (zero : F) (idx : List Nat → List Nat)
    (sched : List Chunk → List Chunk) (P : Nat) (code : ℚ → Int) (glob : Name → List Name) (answer : Option Char)
    (argv : List Name) (o : Opts) (ho : parse argv = o) (h1 : o.pattern ≠ []) (h2 : o.outprefix ≠ []) (h3 : glob o.pattern ≠ [])
    (hins : ins = (glob o.pattern).filter isSegy) (h : Fit w ins disk info) (hyes : o.prompt = true → answer = some 'y') :
    main ops cv zero idx sched P code glob answer argv w =
      (writeAll ops cv zero idx sched P code o.outprefix (o.msg.map Char.toNat) ins (ins.map disk) (ins.map info)
        (kinds (ins.map info)) w >>=
        writeAll ops cv zero idx sched P code o.outprefix (o.msg.map Char.toNat) ins (ins.map disk) (ins.map info)
          (kinds (ins.map info))) := by
  unfold main
  simp only [ho]
  rw [if_neg (by tauto), if_neg h3, ← hins, h.collected.1, Res.ok_bind, h.collected.2, Res.ok_bind, if_neg (by tauto)]

/-- **C100** (partial). For all arguments, files and processes, any order of the writes and anything that was in the output files
before: if the files that match the pattern are SEG-Y files and at most one of them differs from all others in samples or
interval, then for each input the output named after its samples and interval opens with these, the text given and the total
number of traces, and holds the records of all inputs of this kind, file by file in the order of the names, byte for byte. No
other file changes.

Missing: several files that each differ from all others (`C100_alone_refuted`), outputs that are inputs
(`C100_input_refuted`), numbers in the IBM format (`C78_ibm_refuted`), intervals that are not positive (`C78_zero_refuted`),
names that do not end in `segy` or `sgy` (`C100_ending_refuted`). -/
theorem C100_files_partial (ops : FloatOps F) (cv : Conv F (BitVec 64)) (hcv : ∀ v, cv.toT v = v) (zero : F)
    (idx : List Nat → List Nat) (hidx : IsSortIndex idx) (sched : List Chunk → List Chunk) (hs : ∀ l, (sched l).Perm l)
    (P : Nat) (hP : 0 < P) (code : ℚ → Int) (hcode : Function.Injective code) (glob : Name → List Name) (answer : Option Char)
    (argv : List Name) (o : Opts) (ho : parse argv = o) (h1 : o.pattern ≠ []) (h2 : o.outprefix ≠ []) (h3 : glob o.pattern ≠ [])
    (hmsg : ∀ c ∈ o.msg, c.toNat < 256) (hins : ins = (glob o.pattern).filter isSegy) (h : Fit w ins disk info)
    (hyes : o.prompt = true → answer = some 'y')
    (hone : ∀ n ∈ ins, ∀ m ∈ ins, (alike info ins n).length = 1 → (alike info ins m).length = 1 → n = m)
    (hno : ∀ n ∈ ins, target o.outprefix info ins n ∉ ins) :
    ∃ w', main ops cv zero idx sched P code glob answer argv w = .ok w' ∧
      (∀ n ∈ ins, ∃ d, w' (target o.outprefix info ins n) = some d ∧ Joined (o.msg.map Char.toNat) ins disk info n d) ∧
      ∀ x, (∀ n ∈ ins, x ≠ target o.outprefix info ins n) → w' x = w x := by
  have hm : ∀ x ∈ o.msg.map Char.toNat, x < 256 := by
    intro x hx
    obtain ⟨c, hc, rfl⟩ := List.mem_map.1 hx
    exact hmsg c hc
  have hj : ∀ n ∈ ins, ∀ m ∈ ins, ∀ d, kind (info n) = kind (info m) →
      Joined (o.msg.map Char.toNat) ins disk info n d → Joined (o.msg.map Char.toNat) ins disk info m d := by
    intro n _ m _ d e j
    have e1 : (info n).ns = (info m).ns := congrArg Prod.fst e
    have e2 : (info n).inc = (info m).inc := congrArg Prod.snd e
    have ea : alike info ins n = alike info ins m := by unfold alike; rw [e1, e2]
    have et : total info ins n = total info ins m := by unfold total; rw [ea]
    exact ⟨by rw [← e1, ← e2, ← et]; exact j.opens, by rw [← e1, ← et]; exact j.size,
      by rw [← e1, ← et, ← ea]; exact j.records⟩
  rw [main_eq ops cv zero idx sched P code glob answer argv o ho h1 h2 h3 hins h hyes]
  obtain ⟨w', e, g, off⟩ := passes ops cv zero idx sched P code o.outprefix (o.msg.map Char.toNat) h hone hno
    (fun k d => ∀ n ∈ ins, kind (info n) = k → Joined (o.msg.map Char.toNat) ins disk info n d)
    (fun n hn out => by
      obtain ⟨out', e, j⟩ := group_out ops cv hcv zero idx hidx sched hs P hP code hcode _ hm h hn out
      exact ⟨out', e, fun m hm' em => hj n hn m hm' out' em.symm j⟩)
  exact ⟨w', e, fun n hn => by
    obtain ⟨d, e1, e2⟩ := g n hn
    exact ⟨d, e1, e2 n hn rfl⟩, off⟩

/-- **C100**. The bytes of all files after the program do not depend on the number of processes or the order of the writes. -/
theorem C100_processes (ops : FloatOps F) (cv : Conv F (BitVec 64)) (hcv : ∀ v, cv.toT v = v) (zero : F)
    (idx idx' : List Nat → List Nat) (hidx : IsSortIndex idx) (hidx' : IsSortIndex idx')
    (sched sched' : List Chunk → List Chunk) (hs : ∀ l, (sched l).Perm l) (hs' : ∀ l, (sched' l).Perm l)
    (P P' : Nat) (hP : 0 < P) (hP' : 0 < P') (code : ℚ → Int) (hcode : Function.Injective code) (glob : Name → List Name)
    (answer : Option Char) (argv : List Name) (o : Opts) (ho : parse argv = o) (h1 : o.pattern ≠ []) (h2 : o.outprefix ≠ [])
    (h3 : glob o.pattern ≠ []) (hmsg : ∀ c ∈ o.msg, c.toNat < 256) (hins : ins = (glob o.pattern).filter isSegy)
    (h : Fit w ins disk info) (hyes : o.prompt = true → answer = some 'y')
    (hone : ∀ n ∈ ins, ∀ m ∈ ins, (alike info ins n).length = 1 → (alike info ins m).length = 1 → n = m)
    (hno : ∀ n ∈ ins, target o.outprefix info ins n ∉ ins) :
    ∃ a b, main ops cv zero idx sched P code glob answer argv w = .ok a ∧
      main ops cv zero idx' sched' P' code glob answer argv w = .ok b ∧ ∀ x, (a x).map content = (b x).map content := by
  have hm : ∀ x ∈ o.msg.map Char.toNat, x < 256 := by
    intro x hx
    obtain ⟨c, hc, rfl⟩ := List.mem_map.1 hx
    exact hmsg c hc
  have href : ∀ k : Kind, ∃ r : Disk, (∃ n ∈ ins, kind (info n) = k) →
      concatenate ops cv zero idx sched P code (o.msg.map Char.toNat) (ins.map disk) (k.1, code k.2) ⟨0, fun _ => 0#8⟩ = .ok r := by
    intro k
    by_cases hk : ∃ n ∈ ins, kind (info n) = k
    · obtain ⟨n, hn, rfl⟩ := hk
      obtain ⟨r, e, -⟩ := group_out ops cv hcv zero idx hidx sched hs P hP code hcode _ hm h hn ⟨0, fun _ => 0#8⟩
      exact ⟨r, fun _ => e⟩
    · exact ⟨⟨0, fun _ => 0#8⟩, fun hk' => absurd hk' hk⟩
  choose ref hr using href
  have run : ∀ (idx' : List Nat → List Nat) (_ : IsSortIndex idx') (sched' : List Chunk → List Chunk) (_ : ∀ l, (sched' l).Perm l)
      (P' : Nat) (_ : 0 < P'), ∃ w', main ops cv zero idx' sched' P' code glob answer argv w = .ok w' ∧
      (∀ n ∈ ins, (w' (target o.outprefix info ins n)).map content = some (content (ref (kind (info n))))) ∧
      ∀ x, (∀ n ∈ ins, x ≠ target o.outprefix info ins n) → w' x = w x := by
    intro idx' hidx' sched' hs' P' hP'
    rw [main_eq ops cv zero idx' sched' P' code glob answer argv o ho h1 h2 h3 hins h hyes]
    obtain ⟨w', e, g, off⟩ := passes ops cv zero idx' sched' P' code o.outprefix (o.msg.map Char.toNat) h hone hno
      (fun k d => content d = content (ref k))
      (fun n hn out => by
        obtain ⟨out', e, -⟩ := group_out ops cv hcv zero idx' hidx' sched' hs' P' hP' code hcode _ hm h hn out
        exact ⟨out', e, group_bytes ops cv hcv zero idx' idx hidx' hidx sched' sched hs' hs P' P hP' hP code hcode _ hm h hn
          out _ out' _ e (hr _ ⟨n, hn, rfl⟩)⟩)
    refine ⟨w', e, fun n hn => ?_, off⟩
    obtain ⟨d, e1, e2⟩ := g n hn
    rw [e1, Option.map_some, e2]
  obtain ⟨a, ea, ga, oa⟩ := run idx hidx sched hs P hP
  obtain ⟨b, eb, gb, ob⟩ := run idx' hidx' sched' hs' P' hP'
  refine ⟨a, b, ea, eb, fun x => ?_⟩
  by_cases hx : ∃ n ∈ ins, x = target o.outprefix info ins n
  · obtain ⟨n, hn, rfl⟩ := hx
    rw [ga n hn, gb n hn]
  · have hx' : ∀ n ∈ ins, x ≠ target o.outprefix info ins n := fun n hn e => hx ⟨n, hn, e⟩
    rw [oa x hx', ob x hx']

/-- **C100**. When the program asks and the answer is not `y`, no file changes. -/
theorem C100_declined (ops : FloatOps F) (cv : Conv F (BitVec 64)) (zero : F) (idx : List Nat → List Nat)
    (sched : List Chunk → List Chunk) (P : Nat) (code : ℚ → Int) (glob : Name → List Name) (answer : Option Char)
    (argv : List Name) (hp : (parse argv).prompt = true) (hans : answer ≠ some 'y') (w w' : World)
    (hrun : main ops cv zero idx sched P code glob answer argv w = .ok w') : w' = w := by
  unfold main at hrun
  dsimp only at hrun
  split at hrun
  · cases hrun
  split at hrun
  · cases hrun
  obtain ⟨ds, -, hrun⟩ := bind_ok_inv hrun
  obtain ⟨infos, -, hrun⟩ := bind_ok_inv hrun
  rw [if_pos ⟨hp, hans⟩] at hrun
  cases hrun
  rfl

/-- **C100** refuted for two files alone in their kinds: both are written to the file named by the prefix alone, the second over
the first. Only the traces of the file with more samples, or with the greater interval, remain. For all such files, arguments,
processes and orders. -/
theorem C100_alone_refuted (ops : FloatOps F) (cv : Conv F (BitVec 64)) (hcv : ∀ v, cv.toT v = v) (zero : F)
    (idx : List Nat → List Nat) (hidx : IsSortIndex idx) (sched : List Chunk → List Chunk) (hs : ∀ l, (sched l).Perm l)
    (P : Nat) (hP : 0 < P) (code : ℚ → Int) (hcode : Function.Injective code) (glob : Name → List Name) (answer : Option Char)
    (argv : List Name) (o : Opts) (ho : parse argv = o) (h1 : o.pattern ≠ []) (h2 : o.outprefix ≠ []) (h3 : glob o.pattern ≠ [])
    (hmsg : ∀ c ∈ o.msg, c.toNat < 256) (hins : ins = (glob o.pattern).filter isSegy) (h : Fit w ins disk info)
    (hyes : o.prompt = true → answer = some 'y') (a b : Name) (hab : ins = [a, b] ∨ ins = [b, a])
    (hlt : (info a).ns < (info b).ns ∨ (info a).ns = (info b).ns ∧ (info a).inc < (info b).inc)
    (hno : o.outprefix ++ ".segy".toList ∉ ins) :
    ∃ w' d, main ops cv zero idx sched P code glob answer argv w = .ok w' ∧ w' (o.outprefix ++ ".segy".toList) = some d ∧
      openRead d = .ok ⟨(info b).ns, (info b).nt, (info b).inc, 5#16, CharEnc.readText (shown (o.msg.map Char.toNat))⟩ ∧
      records d (info b).ns (info b).nt = records (disk b) (info b).ns (info b).nt ∧
      ∀ x, x ≠ o.outprefix ++ ".segy".toList → w' x = w x := by
  have hm : ∀ x ∈ o.msg.map Char.toNat, x < 256 := by
    intro x hx
    obtain ⟨c, hc, rfl⟩ := List.mem_map.1 hx
    exact hmsg c hc
  have ha : a ∈ ins := by rcases hab with e | e <;> simp [e]
  have hb : b ∈ ins := by rcases hab with e | e <;> simp [e]
  have hne : kind (info a) ≠ kind (info b) := by
    intro e
    have e1 : (info a).ns = (info b).ns := congrArg Prod.fst e
    have e2 : (info a).inc = (info b).inc := congrArg Prod.snd e
    rcases hlt with g | ⟨_, g⟩
    · omega
    · rw [e2] at g
      exact lt_irrefl _ g
  have hk : kinds (ins.map info) = [kind (info a), kind (info b)] := by
    have hlt' : (kind (info a)).1 < (kind (info b)).1 ∨ (kind (info a)).1 = (kind (info b)).1 ∧ (kind (info a)).2 < (kind (info b)).2 := hlt
    have hnlt : ¬ ((kind (info b)).1 < (kind (info a)).1 ∨ (kind (info b)).1 = (kind (info a)).1 ∧ (kind (info b)).2 < (kind (info a)).2) := by
      rintro (g | ⟨g1, g2⟩) <;> rcases hlt' with g' | ⟨g1', g2'⟩
      · omega
      · omega
      · omega
      · exact absurd g2 (not_lt.2 g2'.le)
    rcases hab with e | e
    · rw [e]
      show insertKind (kind (info b)) (insertKind (kind (info a)) []) = _
      simp only [insertKind]
      rw [if_neg hne, if_neg hnlt]
    · rw [e]
      show insertKind (kind (info a)) (insertKind (kind (info b)) []) = _
      simp only [insertKind]
      rw [if_neg (Ne.symm hne), if_pos hlt']
  have hal : ∀ n m, n ≠ m → (ins = [n, m] ∨ ins = [m, n]) → kind (info m) ≠ kind (info n) → alike info ins n = [n] := by
    intro n m _ e hk
    have : ¬ ((info m).ns = (info n).ns ∧ (info m).inc = (info n).inc) := fun g => hk (Prod.ext g.1 g.2)
    unfold alike
    rcases e with e | e <;> rw [e] <;> simp [this]
  have hnab : a ≠ b := fun e => hne (by rw [e])
  have ala := hal a b hnab hab (Ne.symm hne)
  have alb := hal b a (Ne.symm hnab) hab.symm hne
  have na : outName o.outprefix (kind (info a)) ((ins.map info).filter fun i => kind i = kind (info a)).length
      = o.outprefix ++ ".segy".toList := by
    rw [count_alike, ala]; rfl
  have nb : outName o.outprefix (kind (info b)) ((ins.map info).filter fun i => kind i = kind (info b)).length
      = o.outprefix ++ ".segy".toList := by
    rw [count_alike, alb]; rfl
  have tb : total info ins b = (info b).nt := by unfold total; rw [alb]; simp
  have pass : ∀ v : World, ∃ d, writeAll ops cv zero idx sched P code o.outprefix (o.msg.map Char.toNat) ins (ins.map disk)
      (ins.map info) (kinds (ins.map info)) v = .ok (Function.update v (o.outprefix ++ ".segy".toList) (some d)) ∧
      Joined (o.msg.map Char.toNat) ins disk info b d := by
    intro v
    rw [hk]
    obtain ⟨d1, e1, -⟩ := group_out ops cv hcv zero idx hidx sched hs P hP code hcode _ hm h ha
      ((v (o.outprefix ++ ".segy".toList)).getD ⟨0, fun _ => 0#8⟩)
    obtain ⟨d2, e2, j2⟩ := group_out ops cv hcv zero idx hidx sched hs P hP code hcode _ hm h hb d1
    refine ⟨d2, ?_, j2⟩
    unfold writeAll
    simp only [na]
    rw [if_neg hno]
    rw [show concatenate ops cv zero idx sched P code (o.msg.map Char.toNat) (ins.map disk) ((kind (info a)).1, code (kind (info a)).2)
      ((v (o.outprefix ++ ".segy".toList)).getD ⟨0, fun _ => 0#8⟩) = .ok d1 from e1, Res.ok_bind]
    unfold writeAll
    simp only [nb, Function.update_self, Option.getD_some]
    rw [if_neg hno]
    rw [show concatenate ops cv zero idx sched P code (o.msg.map Char.toNat) (ins.map disk) ((kind (info b)).1, code (kind (info b)).2)
      d1 = .ok d2 from e2, Res.ok_bind]
    unfold writeAll
    rw [Function.update_idem]
  obtain ⟨d1, e1, -⟩ := pass w
  obtain ⟨d2, e2, j⟩ := pass (Function.update w (o.outprefix ++ ".segy".toList) (some d1))
  rw [Function.update_idem] at e2
  refine ⟨_, d2, ?_, Function.update_self _ _ _, ?_, ?_, fun x hx => Function.update_of_ne hx _ _⟩
  · rw [main_eq ops cv zero idx sched P code glob answer argv o ho h1 h2 h3 hins h hyes, e1, Res.ok_bind, e2]
  · rw [← tb]; exact j.opens
  · have := j.records
    rw [tb, alb] at this
    rw [this]
    simp

theorem writeAll_ub (ops : FloatOps F) (cv : Conv F (BitVec 64)) (zero : F) (idx : List Nat → List Nat)
    (sched : List Chunk → List Chunk) (P : Nat) (code : ℚ → Int) (o : Name) (msg : List Nat) (ds : List Disk) (infos : List Info) :
    ∀ ks : List Kind, (∀ k ∈ ks, ∀ out, ∃ out', concatenate ops cv zero idx sched P code msg ds (k.1, code k.2) out = .ok out') →
      (∃ k ∈ ks, outName o k (infos.filter fun i => kind i = k).length ∈ ins) → ∀ w,
      writeAll ops cv zero idx sched P code o msg ins ds infos ks w = .ub := by
  intro ks
  induction ks with
  | nil => rintro - ⟨k, hk, -⟩; simp at hk
  | cons a ks ih =>
    intro hg hx w
    unfold writeAll
    dsimp only
    split
    · rfl
    · rename_i hn
      obtain ⟨out', e⟩ := hg a (by simp) ((w (outName o a (infos.filter fun i => kind i = a).length)).getD ⟨0, fun _ => 0#8⟩)
      rw [e, Res.ok_bind]
      apply ih fun k hk => hg k (by simp [hk])
      obtain ⟨k, hk, hx⟩ := hx
      rcases List.mem_cons.1 hk with rfl | hk
      · exact absurd hx hn
      · exact ⟨k, hk, hx⟩

/-- **C100** refuted when the name of an output is the name of an input: the file is open for reading when it is opened with
`MPI_MODE_UNIQUE_OPEN`, which MPI does not allow. For all such files; one file of that name is enough. -/
theorem C100_input_refuted (ops : FloatOps F) (cv : Conv F (BitVec 64)) (hcv : ∀ v, cv.toT v = v) (zero : F)
    (idx : List Nat → List Nat) (hidx : IsSortIndex idx) (sched : List Chunk → List Chunk) (hs : ∀ l, (sched l).Perm l)
    (P : Nat) (hP : 0 < P) (code : ℚ → Int) (hcode : Function.Injective code) (glob : Name → List Name) (answer : Option Char)
    (argv : List Name) (o : Opts) (ho : parse argv = o) (h1 : o.pattern ≠ []) (h2 : o.outprefix ≠ []) (h3 : glob o.pattern ≠ [])
    (hmsg : ∀ c ∈ o.msg, c.toNat < 256) (hins : ins = (glob o.pattern).filter isSegy) (h : Fit w ins disk info)
    (hyes : o.prompt = true → answer = some 'y') (n : Name) (hn : n ∈ ins) (ht : target o.outprefix info ins n ∈ ins) :
    main ops cv zero idx sched P code glob answer argv w = .ub := by
  have hm : ∀ x ∈ o.msg.map Char.toNat, x < 256 := by
    intro x hx
    obtain ⟨c, hc, rfl⟩ := List.mem_map.1 hx
    exact hmsg c hc
  rw [main_eq ops cv zero idx sched P code glob answer argv o ho h1 h2 h3 hins h hyes, writeAll_ub]
  · rfl
  · intro k hk out
    obtain ⟨m, hm', rfl⟩ := (mem_kinds k).1 hk
    obtain ⟨out', e, -⟩ := group_out ops cv hcv zero idx hidx sched hs P hP code hcode _ hm h hm' out
    exact ⟨out', e⟩
  · refine ⟨kind (info n), (mem_kinds _).2 ⟨n, hn, rfl⟩, ?_⟩
    rw [← target_eq]
    exact ht

/-- **C100** refuted for matching files of other names: when no name ends in `segy` or `sgy`, the program ends without an error and
writes no file. -/
theorem C100_ending_refuted (ops : FloatOps F) (cv : Conv F (BitVec 64)) (zero : F) (idx : List Nat → List Nat)
    (sched : List Chunk → List Chunk) (P : Nat) (code : ℚ → Int) (glob : Name → List Name) (answer : Option Char)
    (argv : List Name) (h1 : (parse argv).pattern ≠ []) (h2 : (parse argv).outprefix ≠ []) (h3 : glob (parse argv).pattern ≠ [])
    (hend : ∀ n ∈ glob (parse argv).pattern, isSegy n = false) (w : World) :
    main ops cv zero idx sched P code glob answer argv w = .ok w := by
  have : (glob (parse argv).pattern).filter isSegy = [] := by
    rw [List.filter_eq_nil_iff]
    intro n hn
    rw [hend n hn]
    simp
  unfold main
  dsimp only
  rw [if_neg (by tauto), if_neg h3, this]
  show (if _ then _ else _) = _
  split <;> rfl

theorem getopt_plain {a : Name} (h : a.head? ≠ some '-') (l : List Name) : getopt spec (a :: l) = getopt spec l := by
  conv_lhs => unfold Options.getopt
  rw [if_neg (by rintro rfl; simp at h)]
  split
  · simp at h
  · rfl

theorem getopt_plains : ∀ bs : List Name, (∀ b ∈ bs, b.head? ≠ some '-') → ∀ l, getopt spec (bs ++ l) = getopt spec l
  | [], _, _ => rfl
  | b :: bs, h, l => by
    rw [List.cons_append, getopt_plain (h b (by simp)), getopt_plains bs (fun x hx => h x (by simp [hx]))]

/-- **C100** refuted for names instead of a pattern, as when a shell replaces the pattern before the program starts: all names
after the first are passed over, without a message. For all names and options that follow. -/
theorem C100_shell_refuted (ops : FloatOps F) (cv : Conv F (BitVec 64)) (zero : F) (idx : List Nat → List Nat)
    (sched : List Chunk → List Chunk) (P : Nat) (code : ℚ → Int) (glob : Name → List Name) (answer : Option Char)
    (a : Name) (bs : List Name) (hbs : ∀ b ∈ bs, b.head? ≠ some '-') (rest : List Name) (w : World) :
    main ops cv zero idx sched P code glob answer ("-i".toList :: a :: bs ++ rest) w =
      main ops cv zero idx sched P code glob answer ("-i".toList :: a :: rest) w := by
  have : parse ("-i".toList :: a :: bs ++ rest) = parse ("-i".toList :: a :: rest) := by
    unfold parse
    congr 1
    show getopt spec (['-', 'i'] :: a :: (bs ++ rest)) = getopt spec (['-', 'i'] :: a :: rest)
    have e : ∀ l, getopt spec (['-', 'i'] :: a :: l) = ('i', a) :: getopt spec l := by
      intro l
      conv_lhs => unfold Options.getopt
      simp [Options.letters, spec]
    rw [e, e, getopt_plains bs hbs]
  unfold main
  rw [this]

/-! ### The options -/

/-- An option as it is given. -/
inductive Arg where
  | i (v : Name)
  | o (v : Name)
  | m (v : Name)
  | p

/-- Its words. -/
def Arg.words : Arg → List Name
  | .i v => ["-i".toList, v]
  | .o v => ["-o".toList, v]
  | .m v => ["-m".toList, v]
  | .p => ["-p".toList]

def Arg.i? : Arg → Option Name | .i v => some v | _ => none
def Arg.o? : Arg → Option Name | .o v => some v | _ => none
def Arg.m? : Arg → Option Name | .m v => some v | _ => none
def Arg.p? : Arg → Bool | .p => true | _ => false

/-- **C100**. Options can be given in any order; of each the last counts, whatever its value. -/
theorem C100_options (l : List Arg) : parse (l.flatMap Arg.words) =
    ⟨(l.filterMap Arg.i?).getLast?.getD [], (l.filterMap Arg.o?).getLast?.getD [],
      (l.filterMap Arg.m?).getLast?.getD "Concatenated with ExSeisPIOL".toList, l.any Arg.p?⟩ := by
  have key : ∀ (l : List Arg) (x : Opts), (getopt spec (l.flatMap Arg.words)).foldl option x =
      ⟨(l.filterMap Arg.i?).getLast?.getD x.pattern, (l.filterMap Arg.o?).getLast?.getD x.outprefix,
        (l.filterMap Arg.m?).getLast?.getD x.msg, x.prompt || l.any Arg.p?⟩ := by
    intro l
    induction l with
    | nil => intro x; simp [Options.getopt]
    | cons a l ih =>
      intro x
      rw [List.flatMap_cons]
      cases a with
      | i v =>
        have e : getopt spec (Arg.words (.i v) ++ l.flatMap Arg.words) = ('i', v) :: getopt spec (l.flatMap Arg.words) := by
          show getopt spec (['-', 'i'] :: v :: l.flatMap Arg.words) = _
          conv_lhs => unfold Options.getopt
          simp [Options.letters, spec]
        rw [e, List.foldl_cons, ih]
        simp [option, Arg.i?, Arg.o?, Arg.m?, Arg.p?, List.getLast?_cons]
      | o v =>
        have e : getopt spec (Arg.words (.o v) ++ l.flatMap Arg.words) = ('o', v) :: getopt spec (l.flatMap Arg.words) := by
          show getopt spec (['-', 'o'] :: v :: l.flatMap Arg.words) = _
          conv_lhs => unfold Options.getopt
          simp [Options.letters, spec]
        rw [e, List.foldl_cons, ih]
        simp [option, Arg.i?, Arg.o?, Arg.m?, Arg.p?, List.getLast?_cons]
      | m v =>
        have e : getopt spec (Arg.words (.m v) ++ l.flatMap Arg.words) = ('m', v) :: getopt spec (l.flatMap Arg.words) := by
          show getopt spec (['-', 'm'] :: v :: l.flatMap Arg.words) = _
          conv_lhs => unfold Options.getopt
          simp [Options.letters, spec]
        rw [e, List.foldl_cons, ih]
        simp [option, Arg.i?, Arg.o?, Arg.m?, Arg.p?, List.getLast?_cons]
      | p =>
        have e : getopt spec (Arg.words .p ++ l.flatMap Arg.words) = ('p', []) :: getopt spec (l.flatMap Arg.words) := by
          show getopt spec (['-', 'p'] :: l.flatMap Arg.words) = _
          conv_lhs => unfold Options.getopt
          simp [Options.letters, spec]
        rw [e, List.foldl_cons, ih]
        simp [option, Arg.i?, Arg.o?, Arg.m?, Arg.p?]
  exact key l {}

/-! ### Cases -/

open Verif.Layout (plainSz)

/-- The text of blank bytes. -/
def exText : List Nat := CharEnc.readText (List.replicate 3200 0)

/-- A file of `n` traces of one sample or, if `t`, two; the byte `v` fills the records. -/
def kFile (t : Bool) (n : Nat) (v : Endian.Byte) : Disk :=
  ⟨plainSz n (if t then 2 else 1), fun x => if x = 3221 then (if t then 2#8 else 1#8) else if x = 3216 then 0x07#8
    else if x = 3217 then 0xd0#8 else if x = 3225 then 5#8 else if x < 3600 then 0#8 else v⟩

theorem kFile_open (t : Bool) {n : Nat} (v : Endian.Byte) (hn : plainSz n (if t then 2 else 1) < 2 ^ 63) :
    openRead (kFile t n v) = .ok ⟨if t then 2 else 1, n, exInc false, 5#16, exText⟩ := by
  obtain ⟨ty, h1, h2⟩ := openRead_spec (kFile t n v) (if t then 2 else 1) n 2000 (List.replicate 3200 0) (by cases t <;> simp) rfl hn
    (by cases t
        · show Endian.fromBE16 0#8 1#8 = _; decide
        · show Endian.fromBE16 0#8 2#8 = _; decide)
    (by show Endian.fromBE16 0x07#8 0xd0#8 = _; decide)
    List.length_replicate (fun x hx => by rw [List.eq_of_mem_replicate hx]; omega)
    (fun i hi => by
      rw [List.getElem?_replicate_of_lt hi]
      show (if i = 3221 then (if t then 2#8 else 1#8) else if i = 3216 then 0x07#8
        else if i = 3217 then 0xd0#8 else if i = 3225 then 5#8 else if i < 3600 then 0#8 else v) = _
      rw [if_neg (by omega), if_neg (by omega), if_neg (by omega), if_neg (by omega), if_pos (by omega)]
      rfl)
  have : ty = 5#16 := by rw [h2]; show Endian.fromBE16 0#8 5#8 = _; decide
  rw [h1, this]; rfl

/-- Files with one sample, `a.segy` of two traces and `b.sgy` of one, and the file `c.segy` of one trace of two samples. -/
def exDisk (n : Name) : Disk :=
  if n = "a.segy".toList then kFile false 2 7#8 else if n = "b.sgy".toList then kFile false 1 8#8 else kFile true 1 9#8

def exInfo (n : Name) : Info :=
  ⟨if n = "a.segy".toList then 1 else if n = "b.sgy".toList then 1 else 2, if n = "a.segy".toList then 2 else 1, exInc false, 5#16, exText⟩

theorem exInfo_ns (n : Name) : (exInfo n).ns = if n = "a.segy".toList then 1 else if n = "b.sgy".toList then 1 else 2 := rfl
theorem exInfo_nt (n : Name) : (exInfo n).nt = if n = "a.segy".toList then 2 else 1 := rfl
theorem exInfo_inc (n : Name) : (exInfo n).inc = exInc false := rfl

/-- The disk, with a file that is no SEG-Y file. -/
def exWorld : World := fun n =>
  if n = "a.segy".toList ∨ n = "b.sgy".toList ∨ n = "c.segy".toList ∨ n = "notes".toList then some (exDisk n) else none

theorem exOpen (n : Name) : openRead (exDisk n) = .ok (exInfo n) := by
  unfold exDisk exInfo
  split
  · exact kFile_open false _ (by decide)
  · split
    · exact kFile_open false _ (by decide)
    · exact kFile_open true _ (by decide)

theorem exFit {ins : List Name} (hi : ∀ n ∈ ins, exWorld n = some (exDisk n)) (hl : ins.length < 1000) :
    Fit exWorld ins exDisk exInfo where
  there := hi
  opens := fun n _ => exOpen n
  size := fun n _ => by
    unfold exDisk
    split
    · show plainSz 2 1 < _; decide
    · split
      · show plainSz 1 1 < _; decide
      · show plainSz 1 2 < _; decide
  few := fun n _ => by unfold exInfo; dsimp only; split <;> [skip; split] <;> omega
  pos := fun _ _ => exInc_pos
  ieee := fun _ _ => by show (5#16 : BitVec 16) ≠ 1#16; decide
  fits := fun n _ => by
    have h1 : total exInfo ins n ≤ (alike exInfo ins n).length * 2 := by
      unfold total
      refine (List.sum_le_card_nsmul _ 2 ?_).trans (by simp)
      intro x hx
      obtain ⟨m, -, rfl⟩ := List.mem_map.1 hx
      unfold exInfo; dsimp only; split <;> omega
    have h2 : (alike exInfo ins n).length ≤ ins.length := List.length_filter_le _ _
    have h3 : (exInfo n).ns ≤ 2 := by unfold exInfo; dsimp only; split <;> [skip; split] <;> omega
    have h4 : total exInfo ins n * (240 + 4 * (exInfo n).ns) ≤ 2000 * 248 := Nat.mul_le_mul (by omega) (by omega)
    omega

/-- Names that match: `*` all, other patterns themselves. -/
def exGlob (n : Name) : List Name :=
  if n = "*".toList then ["a.segy".toList, "b.sgy".toList, "c.segy".toList, "notes".toList]
  else if n = "[ac]*".toList then ["a.segy".toList, "c.segy".toList]
  else [n]

/-- The names of the three. -/
def exIns : List Name := ["a.segy".toList, "b.sgy".toList, "c.segy".toList]

theorem exAlike (n : Name) : alike exInfo exIns n = exIns.filter fun m => (exInfo m).ns = (exInfo n).ns := by
  unfold alike
  apply List.filter_congr
  intro m _
  rw [exInfo_inc, exInfo_inc]
  simp

theorem exAlike_a : alike exInfo exIns "a.segy".toList = ["a.segy".toList, "b.sgy".toList] := by rw [exAlike]; decide
theorem exAlike_b : alike exInfo exIns "b.sgy".toList = ["a.segy".toList, "b.sgy".toList] := by rw [exAlike]; decide
theorem exAlike_c : alike exInfo exIns "c.segy".toList = ["c.segy".toList] := by rw [exAlike]; decide

theorem exOne : ∀ n ∈ exIns, ∀ m ∈ exIns, (alike exInfo exIns n).length = 1 → (alike exInfo exIns m).length = 1 → n = m := by
  have h : ∀ n ∈ exIns, (alike exInfo exIns n).length = 1 → n = "c.segy".toList := by
    intro n hn
    rcases List.mem_cons.1 hn with rfl | hn
    · rw [exAlike_a]; decide
    · rcases List.mem_cons.1 hn with rfl | hn
      · rw [exAlike_b]; decide
      · exact fun _ => List.mem_singleton.1 hn
  exact fun n hn m hm a b => (h n hn a).trans (h m hm b).symm

theorem exOther (n : Name) : target "out".toList exInfo exIns n ∉ exIns := by
  intro h
  have e : (target "out".toList exInfo exIns n).head? = some 'o' := by
    unfold target
    split <;> rfl
  have : ∀ m ∈ exIns, m.head? ≠ some 'o' := by decide
  exact this _ h e

theorem exThere : ∀ n ∈ exIns, exWorld n = some (exDisk n) := by
  intro n hn
  unfold exWorld
  rw [if_pos]
  rcases List.mem_cons.1 hn with rfl | hn
  · exact .inl rfl
  · rcases List.mem_cons.1 hn with rfl | hn
    · exact .inr (.inl rfl)
    · exact .inr (.inr (.inl (List.mem_singleton.1 hn)))

/-- All four files on two processes, the writes in reverse order: the traces of `a.segy` and `b.sgy` are in one file and those of
`c.segy` in another. -/
example : ∃ w' d e, main exOps exConvT 0 insIndex List.reverse 2 (fun q : ℚ => (Encodable.encode q : Int)) exGlob none
      ["-i".toList, "*".toList, "-o".toList, "out".toList] exWorld = .ok w' ∧
    w' ("out1_".toList ++ fixed6 (exInc false) ++ ".segy".toList) = some d ∧ w' "out.segy".toList = some e ∧
    records d 1 3 = records (kFile false 2 7#8) 1 2 ++ records (kFile false 1 8#8) 1 1 ∧
    records e 2 1 = records (kFile true 1 9#8) 2 1 ∧ w' "a.segy".toList = some (kFile false 2 7#8) := by
  obtain ⟨w', h1, h2, h3⟩ := C100_files_partial exOps exConvT (fun _ => rfl) 0 insIndex insIndex_sorts List.reverse
    (fun l => List.reverse_perm l) 2 (by omega) _ exCode exGlob none ["-i".toList, "*".toList, "-o".toList, "out".toList]
    ⟨"*".toList, "out".toList, "Concatenated with ExSeisPIOL".toList, false⟩ (by decide) (by decide) (by decide) (by decide) (by decide)
    (ins := exIns) (by decide) (exFit exThere (by decide)) (fun h => by cases h) exOne (fun n _ => exOther n)
  dsimp only at h2 h3
  obtain ⟨d, d1, d2⟩ := h2 "a.segy".toList (by decide)
  obtain ⟨e, e1, e2⟩ := h2 "c.segy".toList (by decide)
  have ta : total exInfo exIns "a.segy".toList = 3 := by unfold total; rw [exAlike_a]; decide
  have tc : total exInfo exIns "c.segy".toList = 1 := by unfold total; rw [exAlike_c]; decide
  have na : target "out".toList exInfo exIns "a.segy".toList = "out1_".toList ++ fixed6 (exInc false) ++ ".segy".toList := by
    rw [target, exAlike_a, if_neg (by decide), exInfo_inc, exInfo_ns, if_pos rfl]
    generalize fixed6 (exInc false) = x
    rfl
  have nc : target "out".toList exInfo exIns "c.segy".toList = "out.segy".toList := by
    rw [target, exAlike_c, if_pos (by decide)]
    decide
  refine ⟨w', d, e, h1, by rw [← na, d1], by rw [← nc, e1], ?_, ?_, ?_⟩
  · have := d2.records
    rw [ta, exAlike_a, List.flatMap_cons, List.flatMap_cons, List.flatMap_nil, List.append_nil] at this
    exact this
  · have := e2.records
    rw [tc, exAlike_c, List.flatMap_cons, List.flatMap_nil, List.append_nil] at this
    exact this
  · rw [h3 _ fun n hn e => exOther n (by rw [← e]; decide)]
    exact exThere _ (by decide)

/-- `a.segy` and `c.segy` alone: only the trace of `c.segy` is left. -/
example : ∃ w' d, main exOps exConvT 0 insIndex id 3 (fun q : ℚ => (Encodable.encode q : Int)) exGlob (some 'y')
      ["-p".toList, "-i[ac]*".toList, "-o".toList, "out".toList, "-m".toList, "joined".toList] exWorld = .ok w' ∧
    w' "out.segy".toList = some d ∧ records d 2 1 = records (kFile true 1 9#8) 2 1 ∧
    ∀ x, x ≠ "out.segy".toList → w' x = exWorld x := by
  obtain ⟨w', d, h1, h2, -, h3, h4⟩ := C100_alone_refuted exOps exConvT (fun _ => rfl) 0 insIndex insIndex_sorts id
    (fun l => List.Perm.refl l) 3 (by omega) _ exCode exGlob (some 'y')
    ["-p".toList, "-i[ac]*".toList, "-o".toList, "out".toList, "-m".toList, "joined".toList]
    ⟨"[ac]*".toList, "out".toList, "joined".toList, true⟩ (by decide) (by decide) (by decide) (by decide) (by decide)
    (ins := ["a.segy".toList, "c.segy".toList]) (disk := exDisk) (info := exInfo) (by decide) (exFit (fun n hn => exThere n ((by decide : ∀ n ∈ ["a.segy".toList, "c.segy".toList], n ∈ exIns) n hn)) (by decide)) (fun _ => rfl)
    "a.segy".toList "c.segy".toList
    (.inl rfl) (.inl (by decide)) (by decide)
  exact ⟨w', d, h1, h2, h3, h4⟩

/-- The file `a.segy` with prefix `a`. -/
example : main exOps exConvT 0 insIndex id 3 (fun q : ℚ => (Encodable.encode q : Int)) exGlob none
      ["-i".toList, "a.segy".toList, "-o".toList, "a".toList] exWorld = .ub :=
  C100_input_refuted exOps exConvT (fun _ => rfl) 0 insIndex insIndex_sorts id
    (fun l => List.Perm.refl l) 3 (by omega) _ exCode exGlob none
    ["-i".toList, "a.segy".toList, "-o".toList, "a".toList]
    ⟨"a.segy".toList, "a".toList, "Concatenated with ExSeisPIOL".toList, false⟩ (by decide) (by decide) (by decide) (by decide) (by decide)
    (ins := ["a.segy".toList]) (by decide) (exFit (fun n hn => exThere n ((by decide : ∀ n ∈ ["a.segy".toList], n ∈ exIns) n hn)) (by decide)) (fun h => by cases h)
    "a.segy".toList (by decide) (by
      have : alike exInfo ["a.segy".toList] "a.segy".toList = ["a.segy".toList] := by
        unfold alike
        rw [List.filter_cons, if_pos (by rw [decide_eq_true_eq]; exact ⟨rfl, rfl⟩)]
        rfl
      rw [target, this, if_pos (by decide)]
      decide)

/-- The file `notes`. -/
example : main exOps exConvT 0 insIndex id 3 (fun q : ℚ => (Encodable.encode q : Int)) exGlob none
      ["-i".toList, "notes".toList, "-o".toList, "out".toList] exWorld = .ok exWorld :=
  C100_ending_refuted exOps exConvT 0 insIndex id 3 _ exGlob none _ (by decide) (by decide) (by decide) (by decide) exWorld

/-- `concatenate -i a.segy b.sgy -o out` joins nothing. -/
example : main exOps exConvT 0 insIndex id 3 (fun q : ℚ => (Encodable.encode q : Int)) exGlob none
      ["-i".toList, "a.segy".toList, "b.sgy".toList, "-o".toList, "out".toList] exWorld =
    main exOps exConvT 0 insIndex id 3 (fun q : ℚ => (Encodable.encode q : Int)) exGlob none
      ["-i".toList, "a.segy".toList, "-o".toList, "out".toList] exWorld :=
  C100_shell_refuted exOps exConvT 0 insIndex id 3 _ exGlob none "a.segy".toList ["b.sgy".toList] (by decide) _ exWorld

/-- A question and the answer no. -/
example (w' : World) (h : main exOps exConvT 0 insIndex id 3 (fun q : ℚ => (Encodable.encode q : Int)) exGlob (some 'n')
    ["-pi".toList, "*".toList, "-o".toList, "out".toList] exWorld = .ok w') : w' = exWorld :=
  C100_declined exOps exConvT 0 insIndex id 3 _ exGlob (some 'n') _ (by decide) (by decide) exWorld w' h

/-- Two files of the same kind on three processes and on one. -/
example : ∃ a b, main exOps exConvT 0 insIndex List.reverse 3 (fun q : ℚ => (Encodable.encode q : Int)) exGlob none
      ["-i".toList, "*".toList, "-o".toList, "out".toList] exWorld = .ok a ∧
    main exOps exConvT 0 insIndex id 1 (fun q : ℚ => (Encodable.encode q : Int)) exGlob none
      ["-i".toList, "*".toList, "-o".toList, "out".toList] exWorld = .ok b ∧ ∀ x, (a x).map content = (b x).map content := by
  refine C100_processes exOps exConvT (fun _ => rfl) 0 insIndex insIndex insIndex_sorts insIndex_sorts List.reverse id
    (fun l => List.reverse_perm l) (fun l => List.Perm.refl l) 3 1 (by omega) (by omega) _ exCode exGlob none
    ["-i".toList, "*".toList, "-o".toList, "out".toList]
    ⟨"*".toList, "out".toList, "Concatenated with ExSeisPIOL".toList, false⟩ (by decide) (by decide) (by decide) (by decide) (by decide)
    (ins := exIns) (by decide) (exFit exThere (by decide)) (fun h => by cases h) exOne (fun n _ => exOther n)

end Verif.ConcatTool

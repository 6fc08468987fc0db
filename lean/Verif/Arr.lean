import Verif.Basic
/-!
# Arrays

Storage is a length and a content function; every access outside the length is
undefined behaviour.  (`std::vector::operator[]` and raw pointers check nothing.)
-/
namespace Verif

/-- A block of memory holding `len` elements.
Memory of the code: a pointer or vector with its allocated length (not code of /repo). -/
structure Arr (α : Type u) where
  len : Nat
  val : Nat → α

namespace Arr
variable {α : Type u}

/-- `a[i]` read. C++ element access (not code of /repo); outside it is undefined. -/
def get (a : Arr α) (i : Nat) : Res α := if i < a.len then .ok (a.val i) else .ub

/-- `a[i] = v`. C++ element access (not code of /repo); outside it is undefined. -/
def set (a : Arr α) (i : Nat) (v : α) : Res (Arr α) :=
  if i < a.len then .ok { a with val := fun j => if j = i then v else a.val j } else .ub

/-- `n` equal elements. As `std::vector` makes them (not code of /repo). -/
def fill (n : Nat) (d : α) : Arr α := ⟨n, fun _ => d⟩

/-- Store the elements of `bs` one after the other from address `addr`;
addresses are `size_t` and wrap. Stands for `std::copy` in `src/segy_utils.cc` 88, 97, 111, 122. -/
def writes (a : Arr α) (addr : Nat) : List α → Res (Arr α)
  | [] => .ok a
  | b :: bs => do
    let a ← a.set (addr % 2 ^ 64) b
    writes a (addr + 1) bs

/-- `std::copy(&src[s], &src[s+n], &dst[d])`. Used for `src/segy_utils.cc` 29-37 and 138-147. -/
def copy (src : Arr α) (s : Nat) (dst : Arr α) (d : Nat) : Nat → Res (Arr α)
  | 0 => .ok dst
  | n + 1 => do
    let v ← src.get s
    let dst ← dst.set d v
    copy src (s + 1) dst (d + 1) n

/-- Content as a list. Not code of /repo: used in statements. -/
def toList (a : Arr α) : List α := (List.range a.len).map a.val

/-- Array with the content of a list. Not code of /repo: used in statements. -/
def ofList [Inhabited α] (l : List α) : Arr α := ⟨l.length, fun i => l[i]?.getD default⟩

theorem get_ok {a : Arr α} {i : Nat} (h : i < a.len) : a.get i = .ok (a.val i) := by
  unfold get; rw [if_pos h]

theorem get_ub {a : Arr α} {i : Nat} (h : ¬ i < a.len) : a.get i = .ub := by
  unfold get; rw [if_neg h]

theorem set_ok {a : Arr α} {i : Nat} (h : i < a.len) (v : α) :
    a.set i v = .ok { a with val := fun j => if j = i then v else a.val j } := by
  unfold set; rw [if_pos h]

theorem set_ub {a : Arr α} {i : Nat} (h : ¬ i < a.len) (v : α) : a.set i v = .ub := by
  unfold set; rw [if_neg h]

theorem writes_spec (bs : List α) : ∀ (a : Arr α) (addr : Nat), addr + bs.length ≤ a.len →
    a.len ≤ 2 ^ 64 →
    ∃ a', a.writes addr bs = .ok a' ∧ a'.len = a.len ∧
      (∀ x, ¬ (addr ≤ x ∧ x < addr + bs.length) → a'.val x = a.val x) ∧
      ∀ j (h : j < bs.length), a'.val (addr + j) = bs[j] := by
  induction bs with
  | nil => intro a addr _ _; exact ⟨a, rfl, rfl, fun _ _ => rfl, fun j h => by simp at h⟩
  | cons b bs ih =>
    intro a addr h hl
    rw [List.length_cons] at h
    unfold writes
    rw [Nat.mod_eq_of_lt (by omega), set_ok (by omega)]
    simp only [Res.ok_bind]
    obtain ⟨a', h1, h2, h3, h4⟩ :=
      ih { a with val := fun j => if j = addr then b else a.val j } (addr + 1)
        (by show addr + 1 + bs.length ≤ a.len; omega) hl
    refine ⟨a', h1, h2, ?_, ?_⟩
    · intro x hx
      rw [List.length_cons] at hx
      rw [h3 x (by omega)]
      show (if x = addr then b else a.val x) = a.val x
      rw [if_neg (by omega)]
    · intro j hj
      cases j with
      | zero =>
        rw [Nat.add_zero, h3 addr (by omega)]
        show (if addr = addr then b else a.val addr) = b
        rw [if_pos rfl]
      | succ j =>
        have := h4 j (by simpa using hj)
        rw [show addr + (j + 1) = addr + 1 + j by omega, this]
        rfl

theorem copy_spec (n : Nat) : ∀ (src : Arr α) (s : Nat) (dst : Arr α) (d : Nat),
    s + n ≤ src.len → d + n ≤ dst.len →
    ∃ a', copy src s dst d n = .ok a' ∧ a'.len = dst.len ∧
      (∀ x, ¬ (d ≤ x ∧ x < d + n) → a'.val x = dst.val x) ∧
      ∀ j, j < n → a'.val (d + j) = src.val (s + j) := by
  induction n with
  | zero => intro src s dst d _ _; exact ⟨dst, rfl, rfl, fun _ _ => rfl, fun j h => by omega⟩
  | succ n ih =>
    intro src s dst d h1 h2
    unfold copy
    rw [get_ok (by omega), Res.ok_bind, set_ok (by omega), Res.ok_bind]
    obtain ⟨a', e1, e2, e3, e4⟩ := ih src (s + 1)
      { dst with val := fun j => if j = d then src.val s else dst.val j } (d + 1) (by omega)
      (by show d + 1 + n ≤ dst.len; omega)
    refine ⟨a', e1, e2, ?_, ?_⟩
    · intro x hx
      rw [e3 x (by omega)]
      show (if x = d then _ else dst.val x) = dst.val x
      rw [if_neg (by omega)]
    · intro j hj
      cases j with
      | zero =>
        rw [Nat.add_zero, e3 d (by omega)]
        show (if d = d then _ else dst.val d) = _
        rw [if_pos rfl, Nat.add_zero]
      | succ j =>
        have := e4 j (by omega)
        rw [show d + (j + 1) = d + 1 + j by omega, this, show s + 1 + j = s + (j + 1) by omega]

end Arr
end Verif

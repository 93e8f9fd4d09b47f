import Verif.Proofs.Kryo
/-
The flux times of a stream are kept, in order, whatever is in it: only where the revolutions begin can go wrong.
-/
namespace Fox
open Spec Flux KryoFile
namespace Kryo

/-- All flux collected so far. -/
def State.all (s : State) : List Rat := s.closed.flatten ++ s.cur

theorem start_all (offs : List Nat) (s : State) :
    (s.start offs).all = s.all ∧ (s.start offs).ovl = s.ovl ∧ (s.start offs).sck = s.sck := by
  unfold State.start
  split
  · split
    · refine ⟨?_, rfl, rfl⟩
      unfold State.all
      simp
    · exact ⟨rfl, rfl, rfl⟩
  · exact ⟨rfl, rfl, rfl⟩

theorem step_flux {debug : Bool} {s : State} {len n : Nat} (hn : n < 65536) (ho : s.ovl + 65536 ≤ 2 ^ 32) :
    s.step debug (.flux len n) = .ok { s with cur := s.cur ++ [((s.ovl + n : Nat) : Rat) / s.sck], ovl := 0, pos := (if len = 3 then s.pos else s.pos + len) } := by
  rw [State.step, if_neg (by simp; omega), Nat.mod_eq_of_lt (by omega)]

/-- How many overflows there are. -/
abbrev overflows (is : List Item) : Nat := is.countP fun i => match i with | .overflow => true | _ => false

theorem run_times (debug : Bool) (offs : List Nat) : ∀ (is : List Item) (s s' : State) (p : Nat), (∀ i ∈ is, i.Good) →
    s.ovl + 65536 * overflows is + 65536 ≤ 2 ^ 32 → run debug offs s (is.map blockOf ++ [.eof]) = .ok s' →
    s'.all = s.all ++ (fluxes p s.ovl s.sck is).map Prod.snd
  | [], s, s', p, _, _, h => by
    have : s.start offs = s' := by
      have : run debug offs s [Block.eof] = .ok (s.start offs) := rfl
      rw [List.map_nil, List.nil_append, this] at h
      injection h
    rw [← this, (start_all offs s).1, fluxes, List.map_nil, List.append_nil]
  | i :: is, s, s', p, hg, ho, h => by
    obtain ⟨k1, k2, k3⟩ := start_all offs s
    have hgi := hg i List.mem_cons_self
    have hg' : ∀ x ∈ is, x.Good := fun x hx => hg x (List.mem_cons_of_mem _ hx)
    rw [List.map_cons, List.cons_append, run] at h
    generalize s.start offs = s1 at *
    rw [← k1, ← k2, ← k3]
    rw [← k2] at ho
    have key : ∀ (s2 : State) (p' : Nat), s1.step debug (blockOf i) = .ok s2 → s2.ovl + 65536 * overflows is + 65536 ≤ 2 ^ 32 →
        s2.all ++ (fluxes p' s2.ovl s2.sck is).map Prod.snd = s1.all ++ (fluxes p s1.ovl s1.sck (i :: is)).map Prod.snd →
        s'.all = s1.all ++ (fluxes p s1.ovl s1.sck (i :: is)).map Prod.snd := by
      intro s2 p' e1 e2 e3
      rw [e1] at h
      rw [run_times debug offs is s2 s' p' hg' e2 h, e3]
    have flux : ∀ (len n : Nat) (p' : Nat), blockOf i = .flux len n → n < 65536 → overflows (i :: is) = overflows is →
        fluxes p s1.ovl s1.sck (i :: is) = (p, ((s1.ovl + n : Nat) : Rat) / s1.sck) :: fluxes p' 0 s1.sck is →
        s'.all = s1.all ++ (fluxes p s1.ovl s1.sck (i :: is)).map Prod.snd := by
      intro len n p' hb hn hc hf
      rw [hc] at ho
      refine key _ p' (by rw [hb]; exact step_flux hn (by omega)) (by show 0 + _ + _ ≤ _; omega) ?_
      rw [hf, List.map_cons]
      unfold State.all
      simp
    cases i with
    | flux1 n => exact flux 1 n (p + 1) rfl (by have := hgi.2; omega) rfl rfl
    | flux2 n => exact flux 2 n (p + 2) rfl (by have : n < 2048 := hgi; omega) rfl rfl
    | flux3 n => exact flux 3 n (p + 3) rfl hgi rfl rfl
    | overflow =>
      have hc : overflows (Item.overflow :: is) = overflows is + 1 := by unfold overflows; rw [List.countP_cons_of_pos rfl]
      rw [hc] at ho
      refine key { s1 with ovl := s1.ovl + 65536 } (p + 1) ?_ (by show s1.ovl + 65536 + _ + _ ≤ _; omega) rfl
      show Except.ok _ = _
      rw [Nat.min_eq_left (by omega)]
    | clocks a c d z => exact key { s1 with sck := c.value } p rfl ho rfl
    | streamEnd q st =>
      obtain ⟨_, _, c1, c2⟩ := hgi
      refine key s1 p ?_ ho rfl
      show (if st = 1 ∨ st = 2 then _ else _) = _
      rw [if_neg (by omega)]
    | nop1 => exact key { s1 with pos := s1.pos + 1 } (p + 1) rfl ho rfl
    | nop2 x => exact key { s1 with pos := s1.pos + 2 } (p + 2) rfl ho rfl
    | nop3 x y => exact key { s1 with pos := s1.pos + 3 } (p + 3) rfl ho rfl
    | index a q c => exact key s1 p rfl ho rfl
    | note t => exact key s1 p rfl ho rfl
    | streamInfo a t => exact key s1 p rfl ho rfl

theorem flatten_take_drop (l : List (List Rat)) (n : Nat) : ((l.drop 1).take n).flatten <:+: l.flatten := by
  refine ⟨(l.take 1).flatten, ((l.drop 1).drop n).flatten, ?_⟩
  rw [List.append_assoc, ← List.flatten_append, List.take_append_drop, ← List.flatten_append, List.take_append_drop]

theorem zip_fst {α β : Type} : ∀ (l : List α) (m : List β), (l.zip m).map Prod.fst = l.take m.length
  | [], m => by simp
  | a :: l, [] => by simp
  | a :: l, b :: m => by rw [List.zip_cons_cons, List.map_cons, zip_fst l m, List.length_cons, List.take_succ_cons]

theorem revolutions_times (debug : Bool) (is : List Item) (rest : List Byte) (hg : ∀ i ∈ is, i.Good)
    (ho : overflows is < 65536) {L : List (List Rat × Rat)} (h : revolutions debug (file is rest) = .ok L) :
    (L.map Prod.fst).flatten <:+: (fluxes 0 0 usualSck is).map Prod.snd := by
  unfold revolutions at h
  rw [blocks_file is rest hg] at h
  simp only at h
  cases hr : run debug (indexes none (is.map blockOf ++ [.eof])).1 {} (is.map blockOf ++ [.eof]) with
  | error e => rw [hr] at h; cases h
  | ok s =>
    rw [hr] at h
    have ht := run_times debug _ is {} s 0 hg (by show 0 + _ + _ ≤ _; omega) hr
    have ha : ({} : State).all = [] := rfl
    rw [ha, List.nil_append] at ht
    have hall : s.all = (s.closed ++ [s.cur]).flatten := by unfold State.all; simp
    simp only at h
    split at h
    · cases h
    · generalize (if s.cut = 0 then 2 ^ 32 - 1 else s.cut - 1) = n at h
      split at h
      · cases h
      · injection h with h
        rw [← h, zip_fst, List.take_take]
        show _ <:+: (fluxes 0 ({} : State).ovl ({} : State).sck is).map Prod.snd
        rw [← ht, hall]
        exact flatten_take_drop _ _

end Kryo
end Fox

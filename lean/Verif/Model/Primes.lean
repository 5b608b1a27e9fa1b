import Verif.Base.Sem

/-! # The prime table of include/HEAAN/arith/conv.h -/

namespace EvalRound

/-- `Q_primes`, conv.h:39-142 (102 entries). -/
def Q_primesList : List W := [
  0xffffffffffc0001,
  0xfffffffff840001,
  0x1000000000980001,
  0x1000000000b00001,
  0xfffffffff240001,
  0x1000000000f00001,
  0xffffffffe7c0001,
  0xffffffffe740001,
  0x1000000001a00001,
  0xffffffffe4c0001,
  0xffffffffe440001,
  0xffffffffe400001,
  0x1000000002340001,
  0xffffffffdbc0001,
  0xffffffffd840001,
  0x1000000002940001,
  0xffffffffd680001,
  0xffffffffd000001,
  0xffffffffcf00001,
  0xffffffffcdc0001,
  0xffffffffcc40001,
  0x1000000003680001,
  0x1000000003900001,
  0xffffffffc300001,
  0x1000000003ec0001,
  0xffffffffbf40001,
  0xffffffffbdc0001,
  0xffffffffb880001,
  0x1000000004d40001,
  0x1000000004f80001,
  0x1000000005040001,
  0xffffffffaec0001,
  0x1000000005400001,
  0x1000000005480001,
  0x10000000054c0001,
  0x1000000005640001,
  0xffffffffa380001,
  0xffffffffa200001,
  0xffffffffa0c0001,
  0x10000000069c0001,
  0xffffffff9600001,
  0x1000000006e00001,
  0xffffffff91c0001,
  0xffffffff8f40001,
  0x10000000075c0001,
  0x1000000007640001,
  0xffffffff8680001,
  0x1000000007d40001,
  0x10000000080c0001,
  0xffffffff7e40001,
  0xffffffff7bc0001,
  0x1000000008540001,
  0xffffffff76c0001,
  0xffffffff7680001,
  0x1000000008e40001,
  0xffffffff6fc0001,
  0x1000000009240001,
  0x1000000009300001,
  0xffffffff6880001,
  0x10000000098c0001,
  0x1000000009c00001,
  0xffffffff6340001,
  0xffffffff5d40001,
  0x100000000a8c0001,
  0xffffffff54c0001,
  0x100000000ab80001,
  0x100000000aec0001,
  0x100000000af40001,
  0xffffffff4d40001,
  0x100000000b300001,
  0x100000000b400001,
  0x100000000b7c0001,
  0x100000000ba00001,
  0xffffffff4380001,
  0xffffffff3e80001,
  0xffffffff37c0001,
  0xffffffff36c0001,
  0x100000000d400001,
  0x100000000d4c0001,
  0x100000000db00001,
  0x100000000de00001,
  0xffffffff2100001,
  0x100000000df40001,
  0x100000000e1c0001,
  0xffffffff1d80001,
  0xffffffff1cc0001,
  0x100000000e3c0001,
  0x100000000e480001,
  0xffffffff1900001,
  0xffffffff1740001,
  0xffffffff15c0001,
  0x100000000f140001,
  0xffffffff0e80001,
  0x100000000f200001,
  0x100000000f3c0001,
  0xfffffffeff80001,
  0xfffffffeff40001,
  0x1000000010100001,
  0x1000000010a00001,
  0xfffffffeefc0001,
  0x1000000011340001,
  0xfffffffee8c0001]

theorem Q_primesList_length : Q_primesList.length = 102 := by decide +kernel

/-- `Q_primes` as an array, conv.h:39. -/
def Q_primes : Fin 102 → W := fun i => Q_primesList[i.val]'(by rw [Q_primesList_length]; exact i.isLt)

end EvalRound

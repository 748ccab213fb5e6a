import Verif.Lemmas.BBCodes

/-! # The code of length 90 with the arguments in the order of the signature -/

namespace Verif.BB
open Verif Verif.Named Verif.Sparse

def mx90i : List ℕ := [0x40008200008000006, 0x80010400010000005, 0x100020800020000003, 0x200041000040000030, 0x400082000080000028, 0x800104000100000018, 0x1000208000200000180, 0x2000410000400000140, 0x40008200008000000c0, 0x8001040001000000c00, 0x10002080002000000a00, 0x20004100004000000600, 0x40008200008000006000, 0x80010400010000005000, 0x100020800020000003000, 0x200041000040000030000, 0x400082000080000028000, 0x800104000100000018000, 0x1000208000000000180001, 0x2000410000000000140002, 0x40008200000000000c0004, 0x8001040000000000c00008, 0x10002080000000000a00010, 0x20004100000000000600020, 0x8200000200006000040, 0x10400000400005000080, 0x20800000800003000100, 0x41000001000030000200, 0x82000002000028000400, 0x104000004000018000800, 0x208000008000180001000, 0x410000010000140002000, 0x8200000200000c0004000, 0x1040000040000c00008000, 0x2080000080000a00010000, 0x4100000100000600020000, 0x8200000200006000040000, 0x10400000400005000080000, 0x20800000800003000100000, 0x1000001000230000200000, 0x2000002000428000400000, 0x4000004000818000800000, 0x8000008001180001000000, 0x10000010002140002000000, 0x200000200040c0004000000]
def mz90i : List ℕ := [0x8000c08001000001, 0x10000a10002000002, 0x20000620004000004, 0x40006040008000008, 0x80005080010000010, 0x100003100020000020, 0x200030000040000041, 0x400028000080000082, 0x800018000100000104, 0x1000180000200000208, 0x2000140000400000410, 0x40000c0000800000820, 0x8000c00001000001040, 0x10000a00002000002080, 0x20000600004000004100, 0x40006000008000008200, 0x80005000010000010400, 0x100003000020000020800, 0x200030000040000041000, 0x400028000080000082000, 0x800018000100000104000, 0x1000180000000000208001, 0x2000140000000000410002, 0x40000c0000000000820004, 0x8000c00000000001040008, 0x10000a00000000002080010, 0x20000600000000004100020, 0x6000000200008200040, 0x5000000400010400080, 0x3000000800020800100, 0x30000001000041000200, 0x28000002000082000400, 0x18000004000104000800, 0x180000008000208001000, 0x140000010000410002000, 0xc0000020000820004000, 0xc00000040001040008000, 0xa00000080002080010000, 0x600000100004100020000, 0x6000000200008200040000, 0x5000000400010400080000, 0x3000000800020800100000, 0x30000001000041000200000, 0x28000002000082000400000, 0x18000004000104000800000]

def rx90i : List (ℕ × ℕ × ℕ) := [(66, 0x4000104724ec70dfe, 0x1001208249), (67, 0x80002087495aa8bfd, 0x2002410492), (68, 0x1000040c071c6e083c, 0x4520d868b65), (69, 0x2000012411c8031c36, 0x40008209), (70, 0x4000024821d002aa2d, 0x80010412), (71, 0x8000048c3fdf1e49dc, 0x41309068a65), (72, 0x100000024fc06dfec49, 0x1201249200), (73, 0x2000000497a05bfda92, 0x2402492400), (74, 0x40000008df9c49c46dc, 0x4ca45b2d848), (75, 0x80000010411ce031c76, 0x41008209), (76, 0x100000020821d502aaad, 0x82010412), (77, 0x200000040c3fdc1e48dc, 0x4130d068a65), (78, 0x4000000124fc36dfee49, 0x1209249200), (79, 0x80000002497a2dbfde92, 0x2412492400), (80, 0x1000000048df9dc9c4edc, 0x4ca65b2d848), (81, 0x200000000206208c4018e, 0x1000200041), (82, 0x400000000405410a80155, 0x2000400082), (83, 0x8000000008038207000e3, 0x4000800104), (84, 0x100000000100e1bedc724f, 0x1049241001), (85, 0x200000000201517dbc7497, 0x2092482002), (86, 0x400000000401c103800718, 0xd16cb4520d), (87, 0x8000000001208e48d8e1bf, 0x200241049), (88, 0x10000000002410e90b5517f, 0x400482092), (89, 0x2000000000481fed8924ec0, 0x9848b4532d), (60, 0x1001201046000c70, 0x1000208), (61, 0x2002402085000aa8, 0x2000410), (62, 0x4004804103000718, 0x4000820), (63, 0x800024f076c76e78, 0x1009209208), (64, 0x100004970adaadeb8, 0x2012412410), (65, 0x200008dfedc924ec0, 0x4c265a2d868), (54, 0x40241188031c06, 0x40008201), (55, 0x8048215002aa05, 0x80010402), (56, 0x1008c3edf1e49c4, 0x41309068a45), (57, 0x201008c4018e031, 0x200041008), (58, 0x402010a8015502a, 0x400082010), (59, 0x80401f6f8f24e23, 0x9848345229), (51, 0x9247246c70df8, 0x1001208248), (52, 0x12487485aa8bf8, 0x2002410490), (53, 0x248c073c6e083f, 0x4520d868b61), (41, 0x3f1f8fc7e3f, 0x9048241209), (44, 0x1c7e3f1f8fc7, 0x41209048241)]
def rz90i : List (ℕ × ℕ × ℕ) := [(63, 0x8000208039e001c1, 0x38000001), (64, 0x1000041003ae001c2, 0x38000002), (65, 0x20000620004000004, 0x4), (66, 0x400010401cf000e08, 0x1c0000008), (67, 0x8000205b70c6db8cb, 0x31d80c0613), (68, 0x10000306db4db6db4d, 0x5028140a25), (69, 0x200008000e78007041, 0xe00000040), (70, 0x400010000eb8007082, 0xe00000080), (71, 0x800018000100000104, 0x100), (72, 0x1000000200e08200e78, 0x8000e00), (73, 0x2000000400e10400eb8, 0x10000e00), (74, 0x4000000600e18600ef8, 0x18000e00), (75, 0x80000010070410073c0, 0x40007000), (76, 0x100000020070820075c0, 0x80007000), (77, 0x200000030070c30077c0, 0xc0007000), (78, 0x40000008038208039e00, 0x200038000), (79, 0x8000001003841003ae00, 0x400038000), (80, 0x10000001803861803be00, 0x600038000), (81, 0x20000000027003ee411c6, 0x38040006), (82, 0x4000000004736e685971e, 0x3020040606), (83, 0x800000000675b6ea69b6e, 0x5028040a06), (84, 0x1000000001036c41fbe387, 0x61f0380c36), (85, 0x200000000202da82f7d547, 0x51e8540a2d), (86, 0x400000000301b6c3efb6c7, 0x30188c061b), (87, 0x8000000008000fb904718e, 0xe01000180), (88, 0x10000000010000f7a087155, 0xe02000140), (89, 0x200000000180000c41000e3, 0x40000c0), (56, 0x1006077d86386d8, 0x7018000600), (55, 0x80407bd0438aa8, 0x7010000a00), (47, 0xe00038e001c0, 0x38000000), (59, 0x80303bec31c36c0, 0xe170d85c36), (58, 0x40203de821c5540, 0xe130d83c36), (50, 0x70001c7000e00, 0x1c0000000), (62, 0x4018069bae3adbb6, 0x40a06028180), (61, 0x20100599a639c7b6, 0x40806018180), (53, 0x38000e38007000, 0xe00000000), (54, 0x40207dc8238c70, 0x7008000c00), (43, 0xdb6db6db6db, 0x30180c0603), (44, 0x16db6db6db6d, 0x5028140a05), (57, 0x20103ee411c6380, 0xe1f0d80c36), (60, 0x1008041fbe3871b6, 0x40e06000180)]

def tab90i : Tab := ⟨0xb0571f0b04c172c95c7a2b12858b2581e0a848152a950762911850ac541d0a044132b154722710848a4511c0984011299446e250f840a6521b0903c0f279386a230e838a04e1a088380d2813c66210d830984b19080340b2692c621f0c8289a4c180783009249205e1d0b8209448170702c07251245a1b0a818b2462286828052c11c8a1909810ae472306024032b10c841708808aa442105820012a110861507800a6401f8b0280e291047e2b09834a241200a8240c280f478290882c9e3e1e0a0200a270f87a27078249a3a1c8981c08260ec72250681c963b1d0901806250dc6c230581492381b0881404240e06e210480c8e34198801002230d4661f038048a351a0780c00220c4602c0e8148632180ac3804210c8622a0d80c822e168a43402200bc5a280c8047e2f1709c3000, 0x2b2a1a2c2a192c2b1828271729271629281525241426241326251222211123211023220f1f1e0e201e0d201f0c1c1b0b1d1b0a1d1c091918081a18071a19061615051715041716031312021412011413002c100f2b110f2a1110290d0c280e0c270e0d260a09250b09240b0a2307062208062108072004031f05031e05041d01001c02001b02012c14052b13042a1203291102281001270f002c260e2b250d2a240c29230b28220a272109262008251f07241e06231d05221c04211b03201a021f19011e18002c1d172b1c162a1b15291a1428191327181226171125161024150f23140e22130d21120c20110b1f100a1e0f091d0e081c0d071b0c061a0b05190a04180903170802160701150600⟩

/-- Light logical operators of both kinds, and operators that anticommute with them. -/
def wx90i : ℕ := 0x1c0001000041008209
def dx90i : ℕ := 0x24120904824000000000000
def wz90i : ℕ := 0x8208041000240007000000
def dz90i : ℕ := 0x3fc0124e00120000000000

theorem base90i : Base 3 15 ([9], [1,2]) ([2,7], [0]) mx90i mz90i rx90i rz90i := base_of_check (by decide +kernel)

theorem good90i : Good tab90i (15 * 3 + 15 * 3) mz90i := good_of_check (by decide +kernel)

theorem go90i_0 : go tab90i rx90i 7 (colW (tab90i.word 0)) 3 (Nat.lor 0 (Nat.shiftLeft 1 0)) (Nat.shiftLeft 1 0) = true := by
  decide +kernel

theorem go90i_1 : go tab90i rx90i 7 (colW (tab90i.word (15 * 3))) 3 (Nat.lor (2 ^ (15 * 3) - 1) (Nat.shiftLeft 1 (15 * 3)))
    (Nat.shiftLeft 1 (15 * 3)) = true := by
  decide +kernel

theorem wit90ix : witnessCheck (15 * 3 + 15 * 3) 10 mz90i mx90i wx90i dx90i = true := by decide +kernel

theorem wit90iz : witnessCheck (15 * 3 + 15 * 3) 10 mx90i mz90i wz90i dz90i = true := by decide +kernel

end Verif.BB

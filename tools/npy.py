import struct,ast
base='/repo/src/mqt/qecc/codes'
def load(c,h):
    f=open(f'{base}/{c}/{h}.npy','rb').read()
    hl=struct.unpack('<H',f[8:10])[0]
    hdr=ast.literal_eval(f[10:10+hl].decode())
    data=f[10+hl:]
    sh=hdr['shape'];n=sh[0]*sh[1]
    sz=len(data)//n
    vals=[int.from_bytes(data[i*sz:(i+1)*sz],'little') for i in range(n)]
    if hdr['fortran_order']:
        return [[vals[j*sh[0]+i] for j in range(sh[1])] for i in range(sh[0])]
    return [vals[i*sh[1]:(i+1)*sh[1]] for i in range(sh[0])]

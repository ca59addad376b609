RC=[0x1,0x8082,0x800000000000808A,0x8000000080008000,0x808B,0x80000001,0x8000000080008081,0x8000000000008009,0x8A,0x88,0x80008009,0x8000000A,0x8000808B,0x800000000000008B,0x8000000000008089,0x8000000000008003,0x8000000000008002,0x8000000000000080,0x800A,0x800000008000000A,0x8000000080008081,0x8000000000008080,0x80000001,0x8000000080008008]
M=(1<<64)-1
def rol(x,n): n%=64; return ((x<<n)|(x>>(64-n)))&M if n else x
def f(A):
    for rc in RC:
        C=[A[x][0]^A[x][1]^A[x][2]^A[x][3]^A[x][4] for x in range(5)]
        D=[C[(x-1)%5]^rol(C[(x+1)%5],1) for x in range(5)]
        A=[[A[x][y]^D[x] for y in range(5)] for x in range(5)]
        x,y=1,0; cur=A[x][y]
        for t in range(24):
            x,y=y,(2*x+3*y)%5
            cur,A[x][y]=A[x][y],rol(cur,(t+1)*(t+2)//2)
        for y in range(5):
            T=[A[x][y] for x in range(5)]
            for x in range(5): A[x][y]=T[x]^((~T[(x+1)%5])&T[(x+2)%5])
        A[0][0]^=rc
    return A
def keccak256(m):
    r=136; m=bytearray(m)+b'\x01'+b'\0'*((-len(m)-1)%r); m[-1]|=0x80
    A=[[0]*5 for _ in range(5)]
    for o in range(0,len(m),r):
        for i in range(17): A[i%5][i//5]^=int.from_bytes(m[o+8*i:o+8*i+8],'little')
        A=f(A)
    return b''.join(A[i%5][i//5].to_bytes(8,'little') for i in range(4))
assert keccak256(b'').hex()=='c5d2460186f7233c927e7db2dcc703c0e500b653ca82273b7bfad8045d85a470'

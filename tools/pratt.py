import math,random
def isp(n):
    if n<2: return False
    for p in (2,3,5,7,11,13,17,19,23,29,31,37):
        if n%p==0: return n==p
    d=n-1;s=0
    while d%2==0: d//=2;s+=1
    for a in (2,3,5,7,11,13,17,19,23,29,31,37):
        x=pow(a,d,n)
        if x in(1,n-1): continue
        for _ in range(s-1):
            x=x*x%n
            if x==n-1: break
        else: return False
    return True
def rho(n):
    if n%2==0: return 2
    while True:
        c=random.randrange(1,n);x=y=random.randrange(n);d=1
        while d==1:
            x=(x*x+c)%n;y=(y*y+c)%n;y=(y*y+c)%n
            d=math.gcd(abs(x-y),n)
        if d!=n: return d
def fac(n):
    if n==1: return []
    if isp(n): return [n]
    d=rho(n); return sorted(fac(d)+fac(n//d))
def cert(p,done):
    if p in done: return
    if p<1000: done[p]=None; return
    f=fac(p-1)
    for q in set(f): cert(q,done)
    for a in range(2,1000):
        if all(pow(a,(p-1)//q,p)!=1 for q in set(f)): break
    done[p]=(a,f)
if __name__=="__main__":
    done={}
    for p in [65537,641,6700417,274177,67280421310721,59649589127497217,5704689200685129054721]: cert(p,done)
    for p in sorted(done): print(p,done[p])
